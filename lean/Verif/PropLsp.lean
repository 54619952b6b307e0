import Verif.LspLemmas
/-
C23, C24, C25: LSP positions and semantic tokens.
-/
namespace Tic.Lsp

/-! ### Specification -/

/-- `pos` is a character boundary of `src`: the byte length of some prefix. -/
def Boundary (src : List Char) (pos : Nat) : Prop := ∃ p s, src = p ++ s ∧ pos = blen p

/-- The LSP position of the end of a prefix: the number of newlines in it, and
the number of UTF-16 units after the last newline. -/
def lspOf (p : List Char) : Position :=
  { line := p.count '\n', character := u16count (lastLine p) }

/-- A request the server may make: `to_lsp` only on character boundaries,
`to_ticc` on anything the client sends. -/
def Query.Valid (src : List Char) : Query → Prop
  | .lsp pos => Boundary src pos
  | .ticc _ => True

/-- The translator after some history of valid requests. -/
def Reachable (src : List Char) (t : Translator) : Prop :=
  ∃ qs, (∀ q ∈ qs, Query.Valid src q) ∧ runAll (forSource src) qs = some t

/-- `src` has a line number `l` with text `line` (without its newline), which
starts after `before` and is followed by `after`. -/
structure IsLine (src : List Char) (l : Nat) (before line after : List Char) : Prop where
  eq : src = before ++ (line ++ after)
  starts : before = [] ∨ ∃ q, before = q ++ ['\n']
  number : before.count '\n' = l
  noNewline : '\n' ∉ line
  ends : after = [] ∨ ∃ q, after = '\n' :: q

/-! ### Helpers -/

theorem toLsp_inv {t : Translator} (h : Inv t) {p s : List Char} (hs : t.source = p ++ s) :
    ∃ t', toLsp t (blen p) = some (t', lspOf p) ∧ Inv t' ∧ t'.source = t.source := by
  obtain ⟨t', he, hi, hsrc, hc⟩ := ensurePos_inv h (blen p)
  obtain ⟨Y, hY, hYgt⟩ := starts_split hi (hsrc.trans hs) hc
  obtain ⟨hd, hp, hel, hnl⟩ := lastLine_split p
  -- the table before `Y` is the line starts of `hd`
  have hst : startsFrom p 0 = startsFrom hd 0 := by
    conv => lhs; rw [hp]
    rw [startsFrom_append, startsFrom_nonl hnl]; simp
  have hlast := last_starts hel
  obtain ⟨X, hX⟩ : ∃ X, 0 :: startsFrom hd 0 = X ++ [blen hd] := by
    rw [List.getLast?_eq_some_iff] at hlast
    exact hlast
  have hlen : X.length = p.count '\n' := by
    have h1 := congrArg List.length hX
    have h2 := startsFrom_length p 0
    rw [hst] at h2
    simp at h1; omega
  have hXlt : ∀ a ∈ X, a < blen hd := by
    have hsorted : (0 :: startsFrom hd 0).Pairwise (· < ·) := by
      simp only [List.pairwise_cons]
      exact ⟨startsFrom_gt _ _, startsFrom_lt_sorted _ _⟩
    rw [hX, List.pairwise_append] at hsorted
    intro a ha
    exact hsorted.2.2 a ha _ (by simp)
  have hle : blen hd ≤ blen p := by rw [hp]; simp
  have htab : t'.lineStarts = X ++ blen hd :: Y := by
    rw [hY, hst, hX]; simp
  have hidx : lineIndex t (blen p) = some (t', X.length) := by
    unfold lineIndex
    rw [he]
    simp only [Option.bind_some, htab]
    rw [binarySearch_split X Y _ _ hXlt hle hYgt]
    by_cases hq : blen hd = blen p <;> simp [hq]
  refine ⟨t', ?_, hi, hsrc⟩
  unfold toLsp
  rw [hidx]
  simp only [Option.bind_some, htab]
  have hget : (X ++ blen hd :: Y)[X.length]? = some (blen hd) := by simp
  rw [hget]
  simp only [Option.bind_some]
  have hsl : slice t'.source (blen hd) (blen p) = some (lastLine p) := by
    have e1 : t'.source = hd ++ (lastLine p ++ s) := by
      rw [hsrc, hs, ← List.append_assoc, ← hp]
    have e2 : blen p = blen hd + blen (lastLine p) := by
      conv => lhs; rw [hp]
      simp
    rw [e1, e2, slice_mid]
  rw [hsl]
  simp [lspOf, hlen]

theorem scanCol_hit (a b : List Char) (ch : Char) (cur i c : Nat)
    (h1 : cur + u16count a ≤ c) (h2 : c < cur + u16count a + u16len ch) :
    scanCol (a ++ ch :: b) cur i c = some (i + blen a) := by
  induction a generalizing cur i with
  | nil => simp at *; simp only [scanCol]; rw [if_pos h2]
  | cons x xs ih =>
    simp only [u16count_cons] at h1 h2
    simp only [List.cons_append, scanCol]
    have := u16len_pos x
    rw [if_neg (by omega), ih _ _ (by omega) (by omega)]
    simp; omega

theorem scanCol_miss (a : List Char) (cur i c : Nat) (h1 : cur + u16count a ≤ c) :
    scanCol a cur i c = none := by
  induction a generalizing cur i with
  | nil => rfl
  | cons x xs ih =>
    simp only [u16count_cons] at h1
    simp only [scanCol]
    rw [if_neg (by omega), ih _ _ (by omega)]

/-- What the table says about an existing line once it has been located. -/
theorem line_table {t : Translator} (h : Inv t) {src before line after : List Char} {l : Nat}
    (hsrc : t.source = src) (hl : IsLine src l before line after)
    (hc : t.complete = true ∨ l < t.lineStarts.length) :
    t.lineStarts[l]? = some (blen before) ∧
    (t.lineStarts[l+1]? = none ∨
      ((∃ q, after = '\n' :: q) ∧ t.lineStarts[l+1]? = some (blen before + blen line + 1))) ∧
    (t.complete = true → after = [] ∨ t.lineStarts[l+1]? ≠ none) ∧
    (t.lineStarts[l+1]? ≠ none ↔ l + 1 < t.lineStarts.length) := by
  obtain ⟨pre, suf, hs', he, htab, hcc⟩ := h
  obtain ⟨heq, hst, hnum, hnn, hend⟩ := hl
  have hEq : before ++ (line ++ after) = pre ++ suf := by rw [← heq, ← hsrc, hs']
  -- The table is the starts of `before`, then the starts of a prefix `r` of the rest.
  have key : ∃ r b, line ++ after = r ++ b ∧
      t.lineStarts = (0 :: startsFrom before 0) ++ startsFrom r (blen before) ∧
      (t.complete = true → '\n' ∉ b) := by
    by_cases hle : blen before ≤ blen pre
    · obtain ⟨r, h1, h2⟩ := prefix_of_blen hEq hle
      refine ⟨r, suf, h2, ?_, hcc⟩
      rw [htab, h1, startsFrom_append]; simp
    · obtain ⟨r, h1, h2⟩ := prefix_of_blen hEq.symm (by omega)
      have hrne : r ≠ [] := by
        intro hr; subst hr; simp at h1; subst h1; omega
      have hrnl : '\n' ∈ r := by
        rcases hst with hb | ⟨q, hq⟩
        · rw [hb] at h1; simp at h1; exact absurd h1.2 hrne
        · rw [hq] at h1
          rcases List.eq_nil_or_concat r with hr | ⟨r', x, hr⟩
          · exact absurd hr hrne
          · rw [List.concat_eq_append] at hr
            rw [hr, ← List.append_assoc] at h1
            have := List.append_inj_right' h1 rfl
            simp at this
            rw [hr, ← this]; simp
      rcases hc with hc | hc
      · have := hcc hc
        rw [h2] at this
        exact absurd (by simp [hrnl]) this
      · exfalso
        rw [htab] at hc
        simp only [List.length_cons, startsFrom_length] at hc
        rw [← hnum, h1, List.count_append] at hc
        have : 0 < r.count '\n' := List.count_pos_iff.2 hrnl
        omega
  obtain ⟨r, b, hr, htab', hcb⟩ := key
  have hlast := last_starts hst
  obtain ⟨X, hX⟩ : ∃ X, 0 :: startsFrom before 0 = X ++ [blen before] := by
    rw [List.getLast?_eq_some_iff] at hlast
    exact hlast
  have hXl : X.length = l := by
    have h1 := congrArg List.length hX
    have h2 := startsFrom_length before 0
    simp at h1; omega
  have htab2 : t.lineStarts = X ++ blen before :: startsFrom r (blen before) := by
    rw [htab', hX]; simp
  have hgetl : t.lineStarts[l]? = some (blen before) := by
    rw [htab2, ← hXl]; simp
  have hget1 : t.lineStarts[l+1]? = (startsFrom r (blen before)).head? := by
    rw [htab2, ← hXl, List.head?_eq_getElem?, List.getElem?_append_right (by omega)]
    simp
  have hbound : t.lineStarts[l+1]? ≠ none ↔ l + 1 < t.lineStarts.length := by
    rw [ne_eq, List.getElem?_eq_none_iff]; omega
  refine ⟨hgetl, ?_, ?_, hbound⟩
  · rw [hget1]
    by_cases hle : blen r ≤ blen line
    · obtain ⟨w, hw, -⟩ := prefix_of_blen hr.symm hle
      left
      have : '\n' ∉ r := fun hm => hnn (hw ▸ List.mem_append_left _ hm)
      rw [startsFrom_nonl this]; rfl
    · obtain ⟨w, hw1, hw2⟩ := prefix_of_blen hr (by omega)
      right
      rcases hend with ha | ⟨q, ha⟩
      · rw [ha] at hw2
        have := congrArg List.length hw2
        simp at this
        have : w = [] := List.eq_nil_of_length_eq_zero (by omega)
        subst this; simp at hw1; subst hw1; omega
      · refine ⟨⟨q, ha⟩, ?_⟩
        rw [hw1, startsFrom_append, startsFrom_nonl hnn]
        rw [ha] at hw2
        cases w with
        | nil => simp at hw1; subst hw1; omega
        | cons x xs =>
          simp at hw2
          rw [← hw2.1]
          simp [startsFrom]
  · intro hcomp
    have hnb := hcb hcomp
    rcases hend with ha | ⟨q, ha⟩
    · exact .inl ha
    · right
      rw [hget1]
      have hmem : '\n' ∈ r := by
        have : '\n' ∈ r ++ b := by rw [← hr, ha]; simp
        rcases List.mem_append.1 this with h | h
        · exact h
        · exact absurd h hnb
      have : 0 < (startsFrom r (blen before)).length := by
        rw [startsFrom_length]; exact List.count_pos_iff.2 hmem
      intro hn
      rw [List.head?_eq_none_iff] at hn
      rw [hn] at this; simp at this

/-- The general behaviour of `toTicc` on an existing line. -/
theorem toTicc_line {t : Translator} (h : Inv t) {src before line after : List Char} {l c : Nat}
    (hsrc : t.source = src) (hl : IsLine src l before line after) :
    ∃ t', Inv t' ∧ t'.source = src ∧
      (toTicc t ⟨l, c⟩ =
        some (t', match scanCol line 0 0 c with
          | some i => blen before + i
          | none => blen before + blen line) ∨
       toTicc t ⟨l, c⟩ =
        some (t', match scanCol (line ++ after) 0 0 c with
          | some i => blen before + i
          | none => blen src) ∧ t'.lineStarts[l+1]? = none ∧ (t'.complete = true → after = [])) ∧
      (t.complete = true ∨ l < t.lineStarts.length → t' = t) := by
  obtain ⟨t', he, hi, hs, hc, hsame⟩ := ensureLine_inv h l
  obtain ⟨h1, h2, h3, h4⟩ := line_table hi (hs.trans hsrc) hl hc
  refine ⟨t', hi, hs.trans hsrc, ?_, hsame⟩
  unfold toTicc
  simp only [he, Option.bind_some, h1]
  have hsrc' : t'.source = before ++ (line ++ after) := by rw [hs, hsrc, hl.eq]
  rcases h2 with h2 | ⟨-, h2⟩
  · right
    simp only [h2]
    have hb : blen t'.source = blen before + blen (line ++ after) := by rw [hsrc']; simp
    have : slice t'.source (blen before) (blen t'.source) = some (line ++ after) := by
      rw [hb, hsrc']
      have := slice_mid before (line ++ after) []
      simpa using this
    rw [this]
    simp only [Option.bind_some]
    refine ⟨?_, trivial, ?_⟩
    · have hbs : blen t'.source = blen src := by rw [hs, hsrc]
      cases scanCol (line ++ after) 0 0 c <;> simp [hbs]
    · intro hcomp
      rcases h3 hcomp with h | h
      · exact h
      · exact absurd h2 h
  · left
    simp only [h2]
    have hb : blen before + blen line + 1 - 1 = blen before + blen line := by omega
    have : slice t'.source (blen before) (blen before + blen line + 1 - 1) = some line := by
      rw [hb, hsrc', slice_mid]
    rw [this]
    simp only [Option.bind_some, hb]
    cases scanCol line 0 0 c <;> simp

/-- Every line number either exists or is past the last line. -/
theorem exists_line (src : List Char) (l : Nat) (h : l ≤ src.count '\n') :
    ∃ before line after, IsLine src l before line after := by
  suffices H : ∀ (l : Nat) (pre s : List Char), EndsLine pre → pre.count '\n' + l ≤ (pre ++ s).count '\n' →
      ∃ before line after, IsLine (pre ++ s) (pre.count '\n' + l) before line after by
    simpa using H l [] src (.inl rfl) (by simpa using h)
  intro l
  induction l with
  | zero =>
    intro pre s hpre _
    refine ⟨pre, s.takeWhile (· ≠ '\n'), s.dropWhile (· ≠ '\n'), ⟨?_, hpre, by simp, ?_, ?_⟩⟩
    · rw [List.takeWhile_append_dropWhile]
    · exact nl_not_mem_takeWhile _
    · cases hd : s.dropWhile (· ≠ '\n') with
      | nil => exact .inl rfl
      | cons c cs =>
        right
        have := List.head?_dropWhile_not (p := (· ≠ '\n')) s
        rw [hd] at this
        simp at this
        exact ⟨cs, by rw [this]⟩
  | succ l ih =>
    intro pre s hpre hcount
    have hmem : '\n' ∈ s := by
      rw [List.count_append] at hcount
      exact List.count_pos_iff.1 (by omega)
    obtain ⟨a, b, rfl, hna⟩ : ∃ a b, s = a ++ '\n' :: b ∧ '\n' ∉ a := by
      cases hf : findNewline s 0 with
      | none => exact absurd hmem (findNewline_none.1 hf)
      | some j =>
        obtain ⟨a, b, h1, h2, -⟩ := findNewline_some hf
        exact ⟨a, b, h1, h2⟩
    have e : pre ++ (a ++ '\n' :: b) = (pre ++ (a ++ ['\n'])) ++ b := by simp
    have hca : a.count '\n' = 0 := List.count_eq_zero.2 hna
    have ec : (pre ++ (a ++ ['\n'])).count '\n' = pre.count '\n' + 1 := by
      simp [List.count_append, hca]
    have := ih (pre ++ (a ++ ['\n'])) b (.inr ⟨pre ++ a, by simp⟩) (by rw [ec, ← e]; omega)
    rw [ec, ← e] at this
    rw [show pre.count '\n' + (l + 1) = pre.count '\n' + 1 + l by omega]
    exact this

theorem toTicc_no_line' {t : Translator} (h : Inv t) {l c : Nat}
    (hl : t.source.count '\n' < l) :
    ∃ t', Inv t' ∧ t'.source = t.source ∧ toTicc t ⟨l, c⟩ = some (t', blen t.source) := by
  obtain ⟨t', he, hi, hs, hc, -⟩ := ensureLine_inv h l
  refine ⟨t', hi, hs, ?_⟩
  unfold toTicc
  simp only [he, Option.bind_some]
  have hlen : t'.lineStarts.length ≤ l := by
    obtain ⟨pre, suf, h1, -, h3, -⟩ := hi
    rw [h3]
    simp only [List.length_cons, startsFrom_length]
    rw [← hs, h1, List.count_append] at hl
    omega
  rw [List.getElem?_eq_none hlen, List.getElem?_eq_none (by omega)]
  simp [hs]

/-- `to_ticc` never panics. -/
theorem toTicc_total {t : Translator} (h : Inv t) (p : Position) :
    ∃ t' pos, toTicc t p = some (t', pos) ∧ Inv t' ∧ t'.source = t.source := by
  obtain ⟨l, c⟩ := p
  by_cases hl : l ≤ t.source.count '\n'
  · obtain ⟨before, line, after, hline⟩ := exists_line t.source l hl
    obtain ⟨t', hi, hs, hres, -⟩ := toTicc_line (c := c) h rfl hline
    rcases hres with hres | ⟨hres, -, -⟩
    · exact ⟨t', _, hres, hi, hs⟩
    · exact ⟨t', _, hres, hi, hs⟩
  · obtain ⟨t', hi, hs, hr⟩ := toTicc_no_line' (c := c) h (by omega : t.source.count '\n' < l)
    exact ⟨t', _, hr, hi, hs⟩

theorem runAll_inv (qs : List Query) (t : Translator) (h : Inv t)
    (hq : ∀ q ∈ qs, Query.Valid t.source q) :
    ∃ t', runAll t qs = some t' ∧ Inv t' ∧ t'.source = t.source := by
  induction qs generalizing t with
  | nil => exact ⟨t, rfl, h, rfl⟩
  | cons q qs ih =>
    have step : ∃ t1, q.run t = some t1 ∧ Inv t1 ∧ t1.source = t.source := by
      cases q with
      | lsp pos =>
        obtain ⟨p, s, hs, rfl⟩ := hq (.lsp pos) (by simp)
        obtain ⟨t', h1, h2, h3⟩ := toLsp_inv h hs
        exact ⟨t', by simp [Query.run, h1], h2, h3⟩
      | ticc p =>
        obtain ⟨t', pos, h1, h2, h3⟩ := toTicc_total h p
        exact ⟨t', by simp [Query.run, h1], h2, h3⟩
    obtain ⟨t1, h1, h2, h3⟩ := step
    obtain ⟨t', h4, h5, h6⟩ := ih t1 h2 (fun q hq' => h3 ▸ hq q (by simp [hq']))
    exact ⟨t', by simp [runAll, h1, h4], h5, by rw [h6, h3]⟩

theorem reachable_inv {src : List Char} {t : Translator} (h : Reachable src t) :
    Inv t ∧ t.source = src := by
  obtain ⟨qs, hq, hr⟩ := h
  obtain ⟨t', h1, h2, h3⟩ := runAll_inv qs (forSource src) (inv_forSource src) hq
  rw [hr] at h1; cases h1
  exact ⟨h2, h3⟩

/-! ### C23: round trip -/

/-- No history of valid requests makes the translator panic. -/
theorem translator_never_panics (src : List Char) (qs : List Query)
    (hq : ∀ q ∈ qs, Query.Valid src q) : ∃ t, runAll (forSource src) qs = some t :=
  (runAll_inv qs (forSource src) (inv_forSource src) hq).imp fun _ h => h.1

/-- After any history, an offset is translated to the number of newlines before
it and the UTF-16 length of the text since the last newline. -/
theorem toLsp_correct (src : List Char) (t : Translator) (h : Reachable src t)
    (p s : List Char) (hs : src = p ++ s) :
    (toLsp t (blen p)).map (·.2) = some (lspOf p) := by
  obtain ⟨hi, hsrc⟩ := reachable_inv h
  obtain ⟨t', h1, -, -⟩ := toLsp_inv hi (hsrc.trans hs)
  simp [h1]

/-- The line and column of a prefix describe an actual line of the text. -/
theorem lspOf_isLine (p s : List Char) :
    ∃ before line after a b, IsLine (p ++ s) (p.count '\n') before line after ∧
      line = a ++ b ∧ a = lastLine p ∧ p = before ++ a := by
  obtain ⟨hd, hp, hel, hnl⟩ := lastLine_split p
  have hcount : hd.count '\n' = p.count '\n' := by
    conv => rhs; rw [hp]
    rw [List.count_append, List.count_eq_zero.2 hnl]; simp
  refine ⟨hd, lastLine p ++ s.takeWhile (· ≠ '\n'), s.dropWhile (· ≠ '\n'), lastLine p,
    s.takeWhile (· ≠ '\n'), ⟨?_, hel, hcount, ?_, ?_⟩, rfl, rfl, hp⟩
  · conv => lhs; rw [hp]
    simp only [List.append_assoc, List.takeWhile_append_dropWhile]
  · intro hm
    rcases List.mem_append.1 hm with h | h
    · exact hnl h
    · exact nl_not_mem_takeWhile _ h
  · cases hd : s.dropWhile (· ≠ '\n') with
    | nil => exact .inl rfl
    | cons c cs =>
      right
      have := List.head?_dropWhile_not (p := (· ≠ '\n')) s
      rw [hd] at this
      simp at this
      exact ⟨cs, by rw [this]⟩

/-- Translating an offset to an LSP position in one state of the translator and
back in any other state of it gives the offset again. -/
theorem roundtrip (src : List Char) (t₁ t₂ : Translator)
    (h₁ : Reachable src t₁) (h₂ : Reachable src t₂) (pos : Nat) (hb : Boundary src pos)
    (p : Position) (hp : (toLsp t₁ pos).map (·.2) = some p) :
    (toTicc t₂ p).map (·.2) = some pos := by
  obtain ⟨q, s, hqs, rfl⟩ := hb
  rw [toLsp_correct src t₁ h₁ q s hqs] at hp
  cases hp
  obtain ⟨hi, hsrc⟩ := reachable_inv h₂
  obtain ⟨before, line, after, a, b, hline, rfl, rfl, hq⟩ := lspOf_isLine q s
  obtain ⟨t', -, -, hres, -⟩ := toTicc_line (c := u16count (lastLine q)) hi (hsrc.trans hqs) hline
  have hbq : blen q = blen before + blen (lastLine q) := by
    conv => lhs; rw [hq]
    simp
  have hit : ∀ (ch : Char) (r : List Char), scanCol (lastLine q ++ ch :: r) 0 0 (u16count (lastLine q))
      = some (blen (lastLine q)) := by
    intro ch r
    have := u16len_pos ch
    rw [scanCol_hit _ _ _ _ _ _ (by omega) (by omega)]; simp
  have hmiss : scanCol (lastLine q) 0 0 (u16count (lastLine q)) = none :=
    scanCol_miss _ _ _ _ (by omega)
  have hl : lspOf q = ⟨q.count '\n', u16count (lastLine q)⟩ := rfl
  rcases hres with hres | ⟨hres, -, -⟩
  · rw [hl, hres]
    cases b with
    | nil => simp only [List.append_nil, hmiss]; simp [hbq]
    | cons ch r => simp only [hit]; simp [hbq]
  · rw [hl, hres]
    cases b with
    | nil =>
      rcases hline.ends with ha | ⟨r, ha⟩
      · subst ha
        have := hline.eq
        simp only [List.append_nil, hmiss]
        simp only [Option.map_some, Option.some.injEq]
        rw [this]; simp [hbq]
      · subst ha
        simp only [List.append_nil, hit]; simp [hbq]
    | cons ch r =>
      simp only [List.append_assoc, List.cons_append, hit]; simp [hbq]

/-! ### C24: arbitrary positions -/

/-- A column inside (or exactly at the end of) an existing line is translated to
the character containing it, after any history. -/
theorem toTicc_in_line (src : List Char) (t : Translator) (h : Reachable src t)
    (l c : Nat) (before a after : List Char) (ch : Char) (b : List Char)
    (hl : IsLine src l before (a ++ ch :: b) after)
    (h1 : u16count a ≤ c) (h2 : c < u16count a + u16len ch) :
    (toTicc t ⟨l, c⟩).map (·.2) = some (blen before + blen a) := by
  obtain ⟨hi, hsrc⟩ := reachable_inv h
  obtain ⟨t', -, -, hres, -⟩ := toTicc_line (c := c) hi hsrc hl
  have hit : ∀ r, scanCol (a ++ ch :: r) 0 0 c = some (blen a) := by
    intro r
    rw [scanCol_hit _ _ _ _ _ _ (by omega) (by omega)]; simp
  rcases hres with hres | ⟨hres, -, -⟩
  · rw [hres, hit]; simp
  · rw [hres]
    simp only [List.append_assoc, List.cons_append, hit]; simp

/-- A line number past the last line is translated to the end of the text. -/
theorem toTicc_no_line (src : List Char) (t : Translator) (h : Reachable src t)
    (l c : Nat) (hl : src.count '\n' < l) :
    (toTicc t ⟨l, c⟩).map (·.2) = some (blen src) := by
  obtain ⟨hi, hsrc⟩ := reachable_inv h
  subst hsrc
  obtain ⟨t', -, -, hr⟩ := toTicc_no_line' (c := c) hi hl
  simp [hr]

/-- Full clamping statement for columns at or past the end of an existing line:
the end of the line, whatever was requested before. -/
def ClampsToLineEnd : Prop :=
  ∀ (src : List Char) (t : Translator), Reachable src t →
  ∀ (l c : Nat) (before line after : List Char), IsLine src l before line after →
    u16count line ≤ c → (toTicc t ⟨l, c⟩).map (·.2) = some (blen before + blen line)

/-- The full statement fails: on `"a\nbc"` a fresh translator maps line 0,
column 3 to offset 3 (inside line 1) and not to offset 1, because the next line
start has not been computed yet when the end of the line is looked up. -/
theorem clampsToLineEnd_fails : ¬ ClampsToLineEnd := by
  intro h
  have h1 := h "a\nbc".toList (forSource "a\nbc".toList) ⟨[], by simp, rfl⟩ 0 3 [] ['a']
    "\nbc".toList ⟨by decide, .inl rfl, rfl, by decide, .inr ⟨['b', 'c'], rfl⟩⟩ (by decide)
  have h2 : (toTicc (forSource "a\nbc".toList) ⟨0, 3⟩).map (·.2) = some 3 := by
    unfold toTicc
    rw [show ensureLine (forSource "a\nbc".toList) 0 = some (forSource "a\nbc".toList) by
      unfold ensureLine; simp [forSource]]
    decide
  rw [h2] at h1
  revert h1; decide

/-- The part that holds: the column is clamped to the end of the line if the
column is exactly there, if the line is the last one, or if the translator has
already seen the start of the next line (or the whole text).  Missing: a line
whose successor has not been located yet (see `clampsToLineEnd_fails`). -/
theorem toTicc_past_line_partial (src : List Char) (t : Translator) (h : Reachable src t)
    (l c : Nat) (before line after : List Char) (hl : IsLine src l before line after)
    (hc : u16count line ≤ c)
    (hknown : c = u16count line ∨ after = [] ∨ t.complete = true ∨ l + 1 < t.lineStarts.length) :
    (toTicc t ⟨l, c⟩).map (·.2) = some (blen before + blen line) := by
  obtain ⟨hi, hsrc⟩ := reachable_inv h
  obtain ⟨t', hi', hs', hres, hsame⟩ := toTicc_line (c := c) hi hsrc hl
  have hmiss : scanCol line 0 0 c = none := scanCol_miss _ _ _ _ (by omega)
  rcases hres with hres | ⟨hres, hnone, hcomp⟩
  · rw [hres, hmiss]; simp
  · have hend : after = [] → (toTicc t ⟨l, c⟩).map (·.2) = some (blen before + blen line) := by
      intro ha
      subst ha
      rw [hres]
      simp only [List.append_nil, hmiss]
      have := hl.eq
      rw [this]; simp
    rcases hknown with hk | hk | hk | hk
    · rcases hl.ends with ha | ⟨q, rfl⟩
      · exact hend ha
      · rw [hres, scanCol_hit line q '\n' 0 0 c (by omega) (by simp; omega)]; simp
    · exact hend hk
    · have := hsame (.inl hk); subst this; exact hend (hcomp hk)
    · have := hsame (.inr (by omega)); subst this
      rw [List.getElem?_eq_none_iff] at hnone; omega

-- Non-vacuity: a text with a surrogate pair; column 1 is in the middle of it.
example : IsLine "x\n😀y\nz".toList 1 "x\n".toList (([] : List Char) ++ '😀' :: ['y']) "\nz".toList :=
  ⟨by decide, .inr ⟨['x'], rfl⟩, by decide, by decide, .inr ⟨['z'], rfl⟩⟩
example : u16count ([] : List Char) ≤ 1 ∧ 1 < u16count ([] : List Char) + u16len '😀' := by decide
example : Reachable "a\nb".toList (forSource "a\nb".toList) := ⟨[], by simp, rfl⟩
example : ∃ t, Reachable "a\nb".toList t ∧ ∃ q, Query.Valid "a\nb".toList q ∧ q.run t ≠ none := by
  refine ⟨forSource _, ⟨[], by simp, rfl⟩, .lsp 2, ⟨['a', '\n'], ['b'], rfl, rfl⟩, ?_⟩
  obtain ⟨t', h, -⟩ := toLsp_inv (inv_forSource "a\nb".toList) (p := ['a', '\n']) (s := ['b']) rfl
  have : blen ['a', '\n'] = 2 := by decide
  rw [this] at h
  show (toLsp _ _).map _ ≠ none
  rw [h]; simp

/-! ### The columns are UTF-16 columns -/

/-- The UTF-16 encoding of a character (RFC 2781): one unit, or a high and a low surrogate. -/
def utf16 (c : Char) : List Nat :=
  if c.toNat ≤ 0xFFFF then [c.toNat] else [0xD800 + (c.toNat - 0x10000) / 0x400, 0xDC00 + (c.toNat - 0x10000) % 0x400]

/-- The units are 16 bits wide, and surrogates read back as the character. -/
theorem utf16_units (c : Char) : (∀ u ∈ utf16 c, u < 2 ^ 16) ∧
    (utf16 c = [c.toNat] ∨ ∃ hi lo, utf16 c = [0xD800 + hi, 0xDC00 + lo] ∧ hi < 0x400 ∧ lo < 0x400 ∧
      c.toNat = 0x10000 + hi * 0x400 + lo) := by
  have hc : c.toNat < 0x110000 := by
    have := c.valid
    have e : c.toNat = c.val.toNat := rfl
    simp only [UInt32.isValidChar, Nat.isValidChar] at this
    omega
  unfold utf16
  split
  · refine ⟨?_, .inl rfl⟩
    simp only [List.mem_cons, List.not_mem_nil, or_false]
    omega
  · refine ⟨?_, .inr ⟨_, _, rfl, ?_, ?_, ?_⟩⟩
    · simp only [List.mem_cons, List.not_mem_nil, or_false]
      intro u hu
      generalize c.toNat = n at *
      rcases hu with hu | hu <;> omega
    all_goals generalize c.toNat = n at *
    all_goals omega

/-- What the translator counts in a line, `u16count`, is the number of 16-bit units of its UTF-16 encoding. -/
theorem columns_are_utf16 (cs : List Char) : u16count cs = (cs.flatMap utf16).length := by
  induction cs with
  | nil => rfl
  | cons c cs ih =>
    rw [u16count, ih, List.flatMap_cons, List.length_append]
    congr 1
    unfold u16len utf16
    split
    · rw [if_pos (by omega)]; rfl
    · rw [if_neg (by omega)]; rfl

-- Non-vacuity: the last character of the basic plane, and the first ones above it.
example : utf16 (Char.ofNat 0xFFFF) = [0xFFFF] ∧ utf16 (Char.ofNat 0x10000) = [0xD800, 0xDC00] ∧ utf16 '😀' = [0xD83D, 0xDE00] := by
  decide

end Tic.Lsp
