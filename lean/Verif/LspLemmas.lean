import Verif.Lsp
/-
Helper lemmas for the position translator.
-/
namespace Tic.Lsp

@[simp] theorem blen_nil : blen [] = 0 := rfl
@[simp] theorem blen_cons (c : Char) (cs : List Char) : blen (c :: cs) = c.utf8Size + blen cs := rfl
@[simp] theorem blen_append (a b : List Char) : blen (a ++ b) = blen a + blen b := by
  induction a with
  | nil => simp
  | cons c cs ih => simp [ih]; omega

@[simp] theorem u16count_nil : u16count [] = 0 := rfl
@[simp] theorem u16count_cons (c : Char) (cs : List Char) : u16count (c :: cs) = u16len c + u16count cs := rfl
@[simp] theorem u16count_append (a b : List Char) : u16count (a ++ b) = u16count a + u16count b := by
  induction a with
  | nil => simp
  | cons c cs ih => simp [ih]; omega

theorem u16len_pos (c : Char) : 0 < u16len c := by unfold u16len; split <;> omega

@[simp] theorem newline_size : '\n'.utf8Size = 1 := by decide
@[simp] theorem newline_u16 : u16len '\n' = 1 := by decide

theorem blen_pos_of_ne_nil {a : List Char} (h : a ≠ []) : 0 < blen a := by
  cases a with
  | nil => exact absurd rfl h
  | cons c cs => have := c.utf8Size_pos; simp; omega

@[simp] theorem dropBytes_zero (s : List Char) : dropBytes s 0 = some s := by
  cases s <;> rfl

@[simp] theorem dropBytes_append (a b : List Char) : dropBytes (a ++ b) (blen a) = some b := by
  induction a with
  | nil => simp
  | cons c cs ih =>
    have := c.utf8Size_pos
    obtain ⟨n, hn⟩ : ∃ n, c.utf8Size + blen cs = n + 1 := ⟨c.utf8Size + blen cs - 1, by omega⟩
    simp only [List.cons_append, blen_cons, hn, dropBytes]
    rw [if_neg (by omega)]
    have : n + 1 - c.utf8Size = blen cs := by omega
    rw [this, ih]

@[simp] theorem takeBytes_zero (s : List Char) : takeBytes s 0 = some [] := by
  cases s <;> rfl

@[simp] theorem takeBytes_append (a b : List Char) : takeBytes (a ++ b) (blen a) = some a := by
  induction a with
  | nil => simp
  | cons c cs ih =>
    have := c.utf8Size_pos
    obtain ⟨n, hn⟩ : ∃ n, c.utf8Size + blen cs = n + 1 := ⟨c.utf8Size + blen cs - 1, by omega⟩
    simp only [List.cons_append, blen_cons, hn, takeBytes]
    rw [if_neg (by omega)]
    have : n + 1 - c.utf8Size = blen cs := by omega
    rw [this, ih]; rfl

theorem slice_mid (a b c : List Char) :
    slice (a ++ (b ++ c)) (blen a) (blen a + blen b) = some b := by
  unfold slice
  rw [if_pos (by omega), dropBytes_append]
  simp

/-- Two decompositions of the same text are ordered by byte length. -/
theorem prefix_of_blen {p s a b : List Char} (h : p ++ s = a ++ b) (hl : blen p ≤ blen a) :
    ∃ r, a = p ++ r ∧ s = r ++ b := by
  rcases List.append_eq_append_iff.1 h with ⟨t, h1, h2⟩ | ⟨t, h1, h2⟩
  · exact ⟨t, h1, h2⟩
  · have hb : blen t = 0 := by rw [h1] at hl; simp at hl; omega
    have : t = [] := by
      apply Classical.byContradiction
      intro hne
      have := blen_pos_of_ne_nil hne
      omega
    subst this
    exact ⟨[], by simpa using h1.symm, by simpa using h2.symm⟩

/-- Starts of the lines after the first one, in a text beginning at byte `i`. -/
def startsFrom : List Char → Nat → List Nat
  | [], _ => []
  | c :: cs, i =>
    if c = '\n' then (i + 1) :: startsFrom cs (i + 1) else startsFrom cs (i + c.utf8Size)

theorem startsFrom_append (a b : List Char) (i : Nat) :
    startsFrom (a ++ b) i = startsFrom a i ++ startsFrom b (i + blen a) := by
  induction a generalizing i with
  | nil => simp [startsFrom]
  | cons c cs ih =>
    simp only [List.cons_append, startsFrom, ih, blen_cons]
    split
    · rename_i h; subst h; simp [newline_size, Nat.add_assoc]
    · simp [Nat.add_assoc]

theorem startsFrom_nonl {a : List Char} (h : '\n' ∉ a) (i : Nat) : startsFrom a i = [] := by
  induction a generalizing i with
  | nil => rfl
  | cons c cs ih =>
    simp at h
    simp only [startsFrom]
    rw [if_neg (fun hc => h.1 hc.symm), ih h.2]

theorem startsFrom_gt (a : List Char) (i : Nat) : ∀ y ∈ startsFrom a i, i < y := by
  induction a generalizing i with
  | nil => simp [startsFrom]
  | cons c cs ih =>
    intro y hy
    have := c.utf8Size_pos
    simp only [startsFrom] at hy
    split at hy
    · rcases List.mem_cons.1 hy with rfl | h
      · omega
      · have := ih _ _ h; omega
    · have := ih _ _ hy; omega

theorem startsFrom_le (a : List Char) (i : Nat) : ∀ y ∈ startsFrom a i, y ≤ i + blen a := by
  induction a generalizing i with
  | nil => simp [startsFrom]
  | cons c cs ih =>
    intro y hy
    simp only [startsFrom] at hy
    simp only [blen_cons]
    have := c.utf8Size_pos
    split at hy
    · rename_i h; subst h
      rcases List.mem_cons.1 hy with rfl | h
      · simp
      · have := ih _ _ h; simp at *; omega
    · have := ih _ _ hy; omega

theorem startsFrom_length (a : List Char) (i : Nat) :
    (startsFrom a i).length = a.count '\n' := by
  induction a generalizing i with
  | nil => rfl
  | cons c cs ih =>
    simp only [startsFrom]
    split
    · rename_i h; subst h; simp [ih]
    · rename_i h; rw [ih, List.count_cons_of_ne h]

theorem findNewline_none {s : List Char} {i : Nat} : findNewline s i = none ↔ '\n' ∉ s := by
  induction s generalizing i with
  | nil => simp [findNewline]
  | cons c cs ih =>
    simp only [findNewline]
    split
    · rename_i h; simp [h]
    · rename_i h; rw [ih]; simp; intro _; exact fun hc => h hc.symm

theorem findNewline_some {s : List Char} {i j : Nat} (h : findNewline s i = some j) :
    ∃ a b, s = a ++ '\n' :: b ∧ '\n' ∉ a ∧ j = i + blen a := by
  induction s generalizing i with
  | nil => simp [findNewline] at h
  | cons c cs ih =>
    simp only [findNewline] at h
    split at h
    · rename_i hc; subst hc; simp at h; subst h
      exact ⟨[], cs, rfl, by simp, by simp⟩
    · rename_i hc
      obtain ⟨a, b, rfl, hn, rfl⟩ := ih h
      refine ⟨c :: a, b, rfl, ?_, ?_⟩
      · simp [hn]; exact fun h => hc h.symm
      · simp; omega

/-- Text that is empty or ends a line. -/
def EndsLine (pre : List Char) : Prop := pre = [] ∨ ∃ q, pre = q ++ ['\n']

theorem last_starts {pre : List Char} (h : EndsLine pre) :
    (0 :: startsFrom pre 0).getLast? = some (blen pre) := by
  rcases h with rfl | ⟨q, rfl⟩
  · rfl
  · rw [startsFrom_append]
    have h1 : startsFrom ['\n'] (0 + blen q) = [blen q + 1] := by simp [startsFrom]
    rw [h1, show (0 :: (startsFrom q 0 ++ [blen q + 1])) = (0 :: startsFrom q 0) ++ [blen q + 1] from rfl,
      List.getLast?_concat]
    simp

/-- Invariant of the translator: the table holds the starts of the lines of a
scanned prefix, and a complete table leaves no newline unscanned. -/
def Inv (t : Translator) : Prop :=
  ∃ pre suf, t.source = pre ++ suf ∧ EndsLine pre ∧ t.lineStarts = 0 :: startsFrom pre 0 ∧
    (t.complete = true → '\n' ∉ suf)

theorem inv_forSource (src : List Char) : Inv (forSource src) :=
  ⟨[], src, rfl, .inl rfl, rfl, by simp [forSource]⟩

theorem findNext_inv {t : Translator} (h : Inv t) :
    ∃ t', findNext t = some t' ∧ Inv t' ∧ t'.source = t.source := by
  obtain ⟨pre, suf, hs, he, hl, hc⟩ := h
  unfold findNext
  rw [hl, last_starts he, hs]
  simp only [dropBytes_append]
  cases hn : findNewline suf 0 with
  | none =>
    refine ⟨_, rfl, ⟨pre, suf, rfl, he, hl ▸ rfl, fun _ => findNewline_none.1 hn⟩, rfl⟩
  | some i =>
    obtain ⟨a, b, rfl, hna, rfl⟩ := findNewline_some hn
    refine ⟨_, rfl, ⟨pre ++ (a ++ ['\n']), b, by simp [hs], .inr ⟨pre ++ a, by simp⟩, ?_, ?_⟩, by simp [hs]⟩
    · simp only [List.cons_append, startsFrom_append, startsFrom_nonl hna]
      simp [startsFrom, Nat.add_assoc]
    · intro h; exact fun hb => hc h (by simp)

theorem ensurePos_inv {t : Translator} (h : Inv t) (pos : Nat) :
    ∃ t', ensurePos t pos = some t' ∧ Inv t' ∧ t'.source = t.source ∧
      (t'.complete = true ∨ pos < t'.lineStarts.getLast?.getD 0) := by
  induction hn : remaining t using Nat.strongRecOn generalizing t with
  | ind n ih =>
    unfold ensurePos
    split
    · rename_i hc
      obtain ⟨t', hf, hi, hs⟩ := findNext_inv h
      have hlt := findNext_remaining hf hc.1
      split
      · rename_i hf'; rw [hf] at hf'; cases hf'
      · rename_i t'' hf'
        rw [hf] at hf'; cases hf'
        obtain ⟨t2, h1, h2, h3, h4⟩ := ih _ (hn ▸ hlt) hi rfl
        exact ⟨t2, h1, h2, by rw [h3, hs], h4⟩
    · rename_i hc
      refine ⟨t, rfl, h, rfl, ?_⟩
      cases hcc : t.complete with
      | true => exact .inl rfl
      | false => right; simp [hcc] at hc; omega

theorem ensureLine_inv {t : Translator} (h : Inv t) (line : Nat) :
    ∃ t', ensureLine t line = some t' ∧ Inv t' ∧ t'.source = t.source ∧
      (t'.complete = true ∨ line < t'.lineStarts.length) ∧
      (t.complete = true ∨ line < t.lineStarts.length → t' = t) := by
  induction hn : remaining t using Nat.strongRecOn generalizing t with
  | ind n ih =>
    unfold ensureLine
    split
    · rename_i hc
      obtain ⟨t', hf, hi, hs⟩ := findNext_inv h
      have hlt := findNext_remaining hf hc.1
      split
      · rename_i hf'; rw [hf] at hf'; cases hf'
      · rename_i t'' hf'
        rw [hf] at hf'; cases hf'
        obtain ⟨t2, h1, h2, h3, h4, _⟩ := ih _ (hn ▸ hlt) hi rfl
        refine ⟨t2, h1, h2, by rw [h3, hs], h4, ?_⟩
        rintro (h | h)
        · simp [h] at hc
        · omega
    · rename_i hc
      refine ⟨t, rfl, h, rfl, ?_, fun _ => rfl⟩
      cases hcc : t.complete with
      | true => exact .inl rfl
      | false => right; simp [hcc] at hc; omega

/-- Once the table covers offset `blen p`, it consists of the line starts of `p`
followed by later ones. -/
theorem starts_split {t : Translator} (h : Inv t) {p s : List Char} (hs : t.source = p ++ s)
    (hc : t.complete = true ∨ blen p < t.lineStarts.getLast?.getD 0) :
    ∃ Y, t.lineStarts = (0 :: startsFrom p 0) ++ Y ∧ ∀ y ∈ Y, blen p < y := by
  obtain ⟨pre, suf, hs', he, hl, hcc⟩ := h
  rcases hc with hc | hc
  · have hnl := hcc hc
    have h1 : startsFrom (pre ++ suf) 0 = startsFrom pre 0 := by
      rw [startsFrom_append, startsFrom_nonl hnl]; simp
    refine ⟨startsFrom s (blen p), ?_, startsFrom_gt _ _⟩
    rw [hl, ← h1, ← hs', hs, startsFrom_append]; simp
  · rw [hl, last_starts he] at hc
    simp at hc
    obtain ⟨r, rfl, -⟩ := prefix_of_blen (hs.symm.trans hs') (Nat.le_of_lt hc)
    refine ⟨startsFrom r (blen p), ?_, startsFrom_gt _ _⟩
    rw [hl, startsFrom_append]; simp

theorem nl_not_mem_takeWhile (l : List Char) : '\n' ∉ l.takeWhile (· ≠ '\n') := by
  induction l with
  | nil => simp
  | cons c cs ih =>
    simp only [List.takeWhile_cons]
    split
    · rename_i hc; simp at hc; simp at *; exact ⟨fun h => hc h.symm, ih⟩
    · simp

/-- Text after the last newline. -/
def lastLine (p : List Char) : List Char := (p.reverse.takeWhile (· ≠ '\n')).reverse

theorem lastLine_split (p : List Char) :
    ∃ h, p = h ++ lastLine p ∧ EndsLine h ∧ '\n' ∉ lastLine p := by
  refine ⟨(p.reverse.dropWhile (· ≠ '\n')).reverse, ?_, ?_, ?_⟩
  · unfold lastLine
    rw [← List.reverse_append, List.takeWhile_append_dropWhile, List.reverse_reverse]
  · cases hd : p.reverse.dropWhile (· ≠ '\n') with
    | nil => left; rfl
    | cons c cs =>
      right
      have := List.head?_dropWhile_not (p := (· ≠ '\n')) p.reverse
      rw [hd] at this
      simp at this
      subst this
      exact ⟨cs.reverse, by simp⟩
  · unfold lastLine
    intro h
    have h := List.mem_reverse.1 h
    exact nl_not_mem_takeWhile _ h

theorem startsFrom_lt_sorted (a : List Char) (i : Nat) : (startsFrom a i).Pairwise (· < ·) := by
  induction a generalizing i with
  | nil => simp [startsFrom]
  | cons c cs ih =>
    simp only [startsFrom]
    split
    · simp only [List.pairwise_cons]; exact ⟨startsFrom_gt _ _, ih _⟩
    · exact ih _

/-- Looking up offset `x` in a table that splits as `(X ++ [m]) ++ Y` around it. -/
theorem binarySearch_split (X Y : List Nat) (m x : Nat) (hX : ∀ a ∈ X, a < m) (hm : m ≤ x)
    (hY : ∀ y ∈ Y, x < y) :
    binarySearch (X ++ m :: Y) x = if m = x then .inl X.length else .inr (X.length + 1) := by
  unfold binarySearch
  have hXi : X.findIdx? (· == x) = none := by
    rw [List.findIdx?_eq_none_iff]
    intro a ha; have := hX a ha; simp; omega
  have hYi : Y.findIdx? (· == x) = none := by
    rw [List.findIdx?_eq_none_iff]
    intro a ha; have := hY a ha; simp; omega
  rw [List.findIdx?_append, hXi]
  by_cases hmx : m = x
  · subst hmx; simp [List.findIdx?_cons]
  · have hc1 : X.countP (· < x) = X.length := by
      rw [List.countP_eq_length]; intro a ha; have := hX a ha; simp; omega
    have hc2 : Y.countP (· < x) = 0 := by
      rw [List.countP_eq_zero]; intro a ha; have := hY a ha; simp; omega
    simp only [List.findIdx?_cons, hmx, beq_iff_eq, if_false, hYi, Option.map_none, Option.or_none]
    rw [List.countP_append, List.countP_cons, hc1, hc2]
    simp; omega

end Tic.Lsp
