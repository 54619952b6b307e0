/-
The lexer finds the longest token.
-/
import Verif.LexerSpec

namespace Tic.Lexer

open Tic.Parser (TokenKind TriviaKind LexKind Tok LexRules lex)

/-! ### One pattern -/

/-- `f` is the length of the longest match of the pattern `P`. -/
structure Longest (f : Text → Nat) (P : Text → Prop) : Prop where
  le : ∀ s, f s ≤ s.length
  is : ∀ s, 0 < f s → P (s.take (f s))
  max : ∀ w r, P w → w.length ≤ f (w ++ r)

theorem take_takeWhile (p : UInt8 → Bool) : ∀ s : Text, s.take (s.takeWhile p).length = s.takeWhile p
  | [] => rfl
  | b :: bs => by
    by_cases h : p b = true
    · simp [h, take_takeWhile p bs]
    · simp [h]

theorem takeWhile_all {p : UInt8 → Bool} : ∀ {s : Text}, ∀ c ∈ s.takeWhile p, p c = true
  | [], c, h => by simp at h
  | b :: bs, c, h => by
    by_cases hb : p b = true
    · simp [hb] at h
      rcases h with h | h
      · rw [h]; exact hb
      · exact takeWhile_all c h
    · simp [hb] at h

theorem takeWhile_len (p : UInt8 → Bool) : ∀ s : Text, (s.takeWhile p).length ≤ s.length
  | [] => Nat.le_refl _
  | b :: bs => by
    have := takeWhile_len p bs
    by_cases h : p b = true
    · simp [h]; omega
    · simp [h]

theorem takeWhile_ge {p : UInt8 → Bool} : ∀ {w r : Text}, (∀ c ∈ w, p c = true) → w.length ≤ ((w ++ r).takeWhile p).length
  | [], _, _ => by simp
  | b :: bs, r, h => by
    have hb : p b = true := h b (by simp)
    have := takeWhile_ge (w := bs) (r := r) (fun c hc => h c (by simp [hc]))
    simp [hb]; omega

theorem literal_longest (w : Text) : Longest (literalLen w) (fun v => v = w) where
  le s := by
    unfold literalLen
    split
    · rename_i h; exact (List.isPrefixOf_iff_prefix.1 h).length_le
    · omega
  is s h := by
    unfold literalLen at h ⊢
    split
    · rename_i h'
      obtain ⟨r, rfl⟩ := List.isPrefixOf_iff_prefix.1 h'
      simp
    · rename_i h'; simp [h'] at h
  max v r h := by
    subst h
    unfold literalLen
    rw [if_pos (List.isPrefixOf_iff_prefix.2 ⟨r, rfl⟩)]
    exact Nat.le_refl _

/-- The kinds of fixed texts. -/
def Fixed (k : TokenKind) : Prop := k ≠ .ident ∧ k ≠ .hole ∧ k ≠ .number ∧ k ≠ .string ∧ k ≠ .error

instance (k : TokenKind) : Decidable (Fixed k) := inferInstanceAs (Decidable (_ ∧ _))

theorem literal_fixed {w k} (h : (w, k) ∈ literals) : Fixed k :=
  (show ∀ p ∈ literals, Fixed p.2 by decide) (w, k) h

theorem name_longest : Longest nameLen (Reads (.token .ident)) where
  le s := by
    cases s with
    | nil => simp [nameLen]
    | cons b bs =>
      have := takeWhile_len wordChar bs
      simp only [nameLen, List.length_cons]; split <;> omega
  is s h := by
    cases s with
    | nil => simp [nameLen] at h
    | cons b bs =>
      simp only [nameLen] at h ⊢
      split
      · rename_i hb
        rw [List.take_succ_cons, take_takeWhile]
        exact .name hb takeWhile_all
      · rename_i hb; simp [hb] at h
  max w r h := by
    cases h with
    | literal hm => exact absurd rfl (literal_fixed hm).1
    | name hb hs =>
      have := takeWhile_ge (r := r) hs
      simp only [List.cons_append, nameLen, hb, if_true, List.length_cons]
      omega

theorem number_longest : Longest numberLen (Reads (.token .number)) where
  le s := by
    cases s with
    | nil => simp [numberLen]
    | cons b bs =>
      have := takeWhile_len wordChar bs
      simp only [numberLen, List.length_cons]; split <;> omega
  is s h := by
    cases s with
    | nil => simp [numberLen] at h
    | cons b bs =>
      simp only [numberLen] at h ⊢
      split
      · rename_i hb
        rw [List.take_succ_cons, take_takeWhile]
        exact .number hb takeWhile_all
      · rename_i hb; simp [hb] at h
  max w r h := by
    cases h with
    | literal hm => exact absurd rfl (literal_fixed hm).2.2.1
    | number hb hs =>
      have := takeWhile_ge (r := r) hs
      simp only [List.cons_append, numberLen, hb, if_true, List.length_cons]
      omega

theorem hole_longest : Longest holeLen (Reads (.token .hole)) where
  le s := by
    cases s with
    | nil => simp [holeLen]
    | cons b bs =>
      have := takeWhile_len wordChar bs
      simp only [holeLen, List.length_cons]; split <;> omega
  is s h := by
    cases s with
    | nil => simp [holeLen] at h
    | cons b bs =>
      simp only [holeLen] at h ⊢
      split
      · rename_i hb
        simp only [Bool.and_eq_true, beq_iff_eq, decide_eq_true_eq] at hb
        rw [List.take_succ_cons, take_takeWhile]
        have ha : ∀ c ∈ bs.takeWhile wordChar, wordChar c = true := takeWhile_all
        cases ht : bs.takeWhile wordChar with
        | nil => simp [ht] at hb
        | cons c cs => rw [hb.1]; exact .hole (ht ▸ ha)
      · rename_i hb; simp [hb] at h
  max w r h := by
    cases h with
    | literal hm => exact absurd rfl (literal_fixed hm).2.1
    | @hole b bs hs =>
      have := takeWhile_ge (r := r) hs
      simp only [List.length_cons] at this
      simp only [List.cons_append, holeLen, List.length_cons] at this ⊢
      rw [if_pos (by simp only [beq_self_eq_true, Bool.true_and, decide_eq_true_eq]; omega)]
      omega

theorem stringChar_iff {c : UInt8} : stringChar c = true ↔ c ≠ 34 ∧ c ≠ 10 ∧ c ≠ 92 := by
  simp [stringChar, and_assoc]

theorem takeWhile_stop {p : UInt8 → Bool} {c : UInt8} (hc : p c = false) : ∀ {w r : Text}, (∀ c ∈ w, p c = true) →
    (w ++ c :: r).takeWhile p = w ∧ (w ++ c :: r).dropWhile p = c :: r
  | [], r, _ => by simp [hc]
  | b :: bs, r, h => by
    have hb : p b = true := h b (by simp)
    have := takeWhile_stop hc (w := bs) (r := r) (fun c hc => h c (by simp [hc]))
    simp only [List.cons_append, List.takeWhile_cons, List.dropWhile_cons, hb, if_true]
    exact ⟨by rw [this.1], this.2⟩

theorem dropWhile_drop {p : UInt8 → Bool} : ∀ s : Text, s = s.takeWhile p ++ s.dropWhile p
  | [] => rfl
  | b :: bs => by
    by_cases h : p b = true
    · simp only [List.takeWhile_cons, List.dropWhile_cons, h, if_true, List.cons_append]; rw [← dropWhile_drop bs]
    · simp [h]

theorem string_longest : Longest stringLen (Reads (.token .string)) where
  le s := by
    cases s with
    | nil => simp [stringLen]
    | cons b bs =>
      have h1 := congrArg List.length (dropWhile_drop (p := stringChar) bs)
      simp only [stringLen, List.length_cons, List.length_append] at h1 ⊢
      split
      · split
        · rename_i hd
          rw [hd] at h1
          simp only [List.length_cons] at h1
          split <;> omega
        · omega
      · omega
  is s h := by
    cases s with
    | nil => simp [stringLen] at h
    | cons b bs =>
      have h1 := dropWhile_drop (p := stringChar) bs
      simp only [stringLen] at h ⊢
      split
      · rename_i hb
        have hb : b = 34 := by simpa using hb
        split
        · rename_i c cs hd
          split
          · rename_i hc
            have hc : c = 34 := by simpa using hc
            rw [hd] at h1
            have : (b :: bs).take ((bs.takeWhile stringChar).length + 2) = 34 :: (bs.takeWhile stringChar ++ [34]) := by
              have ht : ∀ tw : Text, (tw ++ 34 :: cs).take (tw.length + 1) = tw ++ [34] := fun tw => by
                rw [show tw ++ 34 :: cs = (tw ++ [34]) ++ cs by simp, List.take_left' (by simp)]
              have e : bs.take ((bs.takeWhile stringChar).length + 1) = bs.takeWhile stringChar ++ [34] := by
                have := ht (bs.takeWhile stringChar)
                rw [← hc, ← h1] at this
                exact hc ▸ this
              rw [List.take_succ_cons, e, hb]
            rw [this]
            exact .string fun c hc => stringChar_iff.1 (takeWhile_all c hc)
          · rename_i hc; simp [hb, hd, hc] at h
        · rename_i hd; simp [hd] at h
      · rename_i hb; simp [hb] at h
  max w r h := by
    cases h with
    | literal hm => exact absurd rfl (literal_fixed hm).2.2.2.1
    | @string bs hs =>
      have := takeWhile_stop (p := stringChar) (c := 34) (by decide) (w := bs) (r := r) (fun c hc => stringChar_iff.2 (hs c hc))
      simp [stringLen, this.1, this.2]

theorem space_longest : Longest spaceLen (Reads (.trivia .space)) where
  le s := takeWhile_len _ s
  is s h := by
    unfold spaceLen at h ⊢
    rw [take_takeWhile]
    have ha : ∀ c ∈ s.takeWhile (· == 32), (c == 32) = true := takeWhile_all
    have : s.takeWhile (· == 32) = List.replicate (s.takeWhile (· == 32)).length 32 :=
      List.eq_replicate_iff.2 ⟨rfl, fun c hc => by simpa using ha c hc⟩
    rw [this]
    cases hn : (s.takeWhile (· == 32)).length with
    | zero => simp [hn] at h
    | succ n => exact .space
  max w r h := by
    cases h with
    | space => exact takeWhile_ge (fun c hc => by simp [List.eq_of_mem_replicate hc])

theorem newline_longest : Longest newlineLen (Reads (.trivia .newline)) where
  le s := by
    cases s with
    | nil => simp [newlineLen]
    | cons b bs =>
      simp only [newlineLen, List.length_cons]
      split
      · omega
      · split
        · rename_i h
          cases bs with
          | nil => simp at h
          | cons => simp
        · omega
  is s h := by
    cases s with
    | nil => simp [newlineLen] at h
    | cons b bs =>
      simp only [newlineLen] at h ⊢
      split
      · rename_i hb
        have hb : b = 10 := by simpa using hb
        rw [hb]; exact .newline
      · rename_i hn
        split
        · rename_i hb
          cases bs with
          | nil => simp at hb
          | cons c cs =>
            simp at hb
            rw [hb.1, hb.2]
            exact .crlf
        · rename_i hb; rw [if_neg hn, if_neg hb] at h; omega
  max w r h := by
    cases h with
    | newline => simp [newlineLen]
    | crlf => simp [newlineLen]

theorem comment_longest : Longest commentLen (Reads (.trivia .comment)) where
  le s := by
    match s with
    | [] => simp [commentLen]
    | [_] => simp [commentLen]
    | b :: c :: bs =>
      have := takeWhile_len (· != 10) bs
      simp only [commentLen, List.length_cons]; split <;> omega
  is s h := by
    match s with
    | [] => simp [commentLen] at h
    | [_] => simp [commentLen] at h
    | b :: c :: bs =>
      simp only [commentLen] at h ⊢
      split
      · rename_i hb
        simp at hb
        rw [List.take_succ_cons, List.take_succ_cons, take_takeWhile, hb.1, hb.2]
        exact .comment fun c hc => by simpa using takeWhile_all c hc
      · rename_i hb; simp [hb] at h
  max w r h := by
    cases h with
    | @comment bs hs =>
      have := takeWhile_ge (r := r) (p := (· != 10)) (w := bs) (fun c hc => by simpa using hs c hc)
      simp only [List.cons_append, commentLen, List.length_cons]
      simp only [beq_self_eq_true, Bool.and_self, if_true]
      omega

/-! ### All patterns -/

theorem best_ge : ∀ {cs : List (Nat × LexKind)} {c}, c ∈ cs → c.1 ≤ (best cs).1
  | d :: ds, c, h => by
    simp only [best]
    rcases List.mem_cons.1 h with rfl | h
    · split <;> omega
    · have := best_ge h
      split <;> omega

theorem best_mem : ∀ {cs : List (Nat × LexKind)}, 0 < (best cs).1 → best cs ∈ cs
  | [], h => by simp [best] at h
  | d :: ds, h => by
    simp only [best] at h ⊢
    split
    · simp
    · rename_i hn
      rw [if_neg hn] at h
      exact List.mem_cons_of_mem _ (best_mem h)

/-- Of equally long ones, the first. -/
theorem best_first {bs : List (Nat × LexKind)} : ∀ {as : List (Nat × LexKind)} {a}, a ∈ as → a.1 = (best (as ++ bs)).1 → best (as ++ bs) ∈ as
  | d :: ds, a, h, he => by
    simp only [List.cons_append, best] at he ⊢
    split
    · simp
    · rename_i hn
      rw [if_neg hn] at he
      rcases List.mem_cons.1 h with rfl | h
      · omega
      · exact List.mem_cons_of_mem _ (best_first h he)

/-- The lengths of the candidates are those of the longest matches. -/
theorem candidate_is {s : Text} {c : Nat × LexKind} (h : c ∈ candidates s) (h0 : 0 < c.1) : c.1 ≤ s.length ∧ Reads c.2 (s.take c.1) := by
  unfold candidates at h
  rcases List.mem_append.1 h with h | h
  · obtain ⟨p, hp, rfl⟩ := List.mem_map.1 h
    refine ⟨(literal_longest p.1).le s, ?_⟩
    rw [show s.take (literalLen p.1 s) = p.1 from (literal_longest p.1).is s h0]
    exact .literal hp
  · simp only [regexMatches, List.mem_cons, List.not_mem_nil, or_false] at h
    rcases h with rfl | rfl | rfl | rfl | rfl | rfl | rfl
    · exact ⟨name_longest.le s, name_longest.is s h0⟩
    · exact ⟨hole_longest.le s, hole_longest.is s h0⟩
    · exact ⟨number_longest.le s, number_longest.is s h0⟩
    · exact ⟨string_longest.le s, string_longest.is s h0⟩
    · exact ⟨space_longest.le s, space_longest.is s h0⟩
    · exact ⟨newline_longest.le s, newline_longest.is s h0⟩
    · exact ⟨comment_longest.le s, comment_longest.is s h0⟩

theorem candidate_ge {k : LexKind} {w r : Text} (h : Reads k w) : ∃ c ∈ candidates (w ++ r), w.length ≤ c.1 := by
  unfold candidates
  cases h with
  | @literal _ k hm =>
    exact ⟨(literalLen w (w ++ r), .token k), List.mem_append_left _ (List.mem_map.2 ⟨(w, k), hm, rfl⟩), (literal_longest w).max w r rfl⟩
  | name a b => exact ⟨_, List.mem_append_right _ (.head _), name_longest.max _ r (.name a b)⟩
  | hole a => exact ⟨_, List.mem_append_right _ (.tail _ (.head _)), hole_longest.max _ r (.hole a)⟩
  | number a b => exact ⟨_, List.mem_append_right _ (.tail _ (.tail _ (.head _))), number_longest.max _ r (.number a b)⟩
  | string a => exact ⟨_, List.mem_append_right _ (.tail _ (.tail _ (.tail _ (.head _)))), string_longest.max _ r (.string a)⟩
  | space => exact ⟨_, List.mem_append_right _ (.tail _ (.tail _ (.tail _ (.tail _ (.head _))))), space_longest.max _ r .space⟩
  | newline => exact ⟨_, List.mem_append_right _ (.tail _ (.tail _ (.tail _ (.tail _ (.tail _ (.head _)))))), newline_longest.max _ r .newline⟩
  | crlf => exact ⟨_, List.mem_append_right _ (.tail _ (.tail _ (.tail _ (.tail _ (.tail _ (.head _)))))), newline_longest.max _ r .crlf⟩
  | comment a => exact ⟨_, List.mem_append_right _ (.tail _ (.tail _ (.tail _ (.tail _ (.tail _ (.tail _ (.head _))))))), comment_longest.max _ r (.comment a)⟩

theorem best_reads {k : LexKind} {w r : Text} (h : Reads k w) : w.length ≤ (best (candidates (w ++ r))).1 :=
  let ⟨_, hc, hl⟩ := candidate_ge (r := r) h
  Nat.le_trans hl (best_ge hc)

theorem reads_pos {k : LexKind} {w : Text} (h : Reads k w) : 0 < w.length := by
  cases h with
  | literal hm => exact (show ∀ p ∈ literals, 0 < p.1.length by decide +kernel) _ hm
  | space => simp
  | _ => simp

theorem mem_candidates {w : Text} {k : TokenKind} {ls : List (Text × TokenKind)} (hm : (w, k) ∈ ls) (s : Text) :
    (literalLen w s, LexKind.token k) ∈ ls.map (fun p => (literalLen p.1 s, LexKind.token p.2)) := List.mem_map.2 ⟨(w, k), hm, rfl⟩

theorem fixed_first {s : Text} {n : Nat} {k : LexKind} (h : (n, k) ∈ fixedMatches s) (he : n = (best (candidates s)).1) :
    best (candidates s) ∈ fixedMatches s := by
  unfold candidates at he ⊢
  exact best_first h he

/-- What is chosen is a token, and the longest one. -/
theorem best_firstToken {s : Text} (h : 0 < (best (candidates s)).1) :
    First (best (candidates s)).2 (s.take (best (candidates s)).1) (s.drop (best (candidates s)).1) := by
  have hc := candidate_is (best_mem h) h
  refine ⟨⟨hc.2, fun hk k' hm => ?_⟩, fun k' w' rest' he hr => ?_⟩
  · have hlen : (s.take (best (candidates s)).1).length = (best (candidates s)).1 := by simp [hc.1]
    have h1 : (literalLen (s.take (best (candidates s)).1) s, LexKind.token k') ∈ fixedMatches s :=
      mem_candidates (ls := literals) hm s
    have h2 : literalLen (s.take (best (candidates s)).1) s = (best (candidates s)).1 := by
      have := (literal_longest (s.take (best (candidates s)).1)).max _ (s.drop (best (candidates s)).1) rfl
      rw [List.take_append_drop] at this
      have h3 : _ ≤ (best (candidates s)).1 := best_ge (cs := candidates s) (List.mem_append_left _ h1)
      simp only at h3
      omega
    have h3 : best (candidates s) ∈ fixedMatches s := fixed_first h1 h2
    obtain ⟨p, hp, hpe⟩ := List.mem_map.1 h3
    have : LexKind.token p.2 = .token .ident := by rw [← hk, ← hpe]
    injection this with this
    exact (literal_fixed (w := p.1) hp).1 this
  · rw [List.take_append_drop] at he
    have := best_reads (r := rest') hr
    rw [he] at this
    simpa [hc.1] using this

/-! ### A text is of at most one kind -/

/-- The kind of a text, by its first byte. -/
def kindOf (w : Text) : Option LexKind :=
  match literals.find? (fun p => p.1 == w) with
  | some p => some (.token p.2)
  | none => match w with
    | [] => none
    | b :: _ => if letter b then some (.token .ident) else if digit b then some (.token .number) else
      if b == 63 then some (.token .hole) else if b == 34 then some (.token .string) else
      if b == 32 then some (.trivia .space) else if b == 45 then some (.trivia .comment) else some (.trivia .newline)

theorem not_literal {w : Text} (h : ∀ p ∈ literals, p.1 ≠ w) : literals.find? (fun p => p.1 == w) = none :=
  List.find?_eq_none.2 fun p hp => by simpa using h p hp

theorem head_not_literal (P : UInt8 → Bool) (hP : ∀ p ∈ literals, p.1.head?.all (fun b => !P b) = true) {b : UInt8} {bs : Text} (hb : P b = true) :
    ∀ p ∈ literals, p.1 ≠ b :: bs := fun p hp e => by
  have := hP p hp
  rw [e] at this
  simp [hb] at this

theorem kind_of {k : LexKind} {w : Text} (h : IsA k w) : kindOf w = some k := by
  obtain ⟨hr, hk⟩ := h
  cases hr with
  | @literal _ k hm =>
    have : ∀ p ∈ literals, literals.find? (fun q => q.1 == p.1) = some p := by decide
    simp only [kindOf, this _ hm]
  | name a b =>
    have := not_literal (w := _ :: _) fun p hp e => hk rfl p.2 (by rw [← e]; exact hp)
    simp [kindOf, this, a]
  | @hole b bs a =>
    have := not_literal (head_not_literal (· == 63) (by decide) (b := 63) (bs := b :: bs) (by decide))
    simp only [kindOf, this]; rfl
  | @number b bs a c =>
    have := not_literal (head_not_literal digit (by decide) (bs := bs) a)
    have hl : letter b = false := by
      have : ∀ b : UInt8, digit b = true → letter b = false := by
        intro b hb
        simp only [digit, letter, Bool.and_eq_true, decide_eq_true_eq, Bool.or_eq_false_iff, Bool.and_eq_false_iff, decide_eq_false_iff_not, beq_eq_false_iff_ne, ne_eq] at *
        refine ⟨⟨.inl ?_, .inl ?_⟩, ?_⟩
        · intro h; have := UInt8.le_trans h hb.2; exact absurd this (by decide)
        · intro h; have := UInt8.le_trans h hb.2; exact absurd this (by decide)
        · intro h; rw [h] at hb; exact absurd hb.2 (by decide)
      exact this b a
    simp [kindOf, this, a, hl]
  | @string bs a =>
    have := not_literal (head_not_literal (· == 34) (by decide) (b := 34) (bs := bs ++ [34]) (by decide))
    simp only [kindOf, this]; rfl
  | @space n =>
    have := not_literal (head_not_literal (· == 32) (by decide) (b := 32) (bs := List.replicate n 32) (by decide))
    simp only [kindOf, List.replicate_succ, this]; rfl
  | newline => decide
  | crlf => decide
  | @comment bs a =>
    have : literals.find? (fun p => p.1 == 45 :: 45 :: bs) = none := not_literal fun p hp e => by
      have h1 := (show ∀ p ∈ literals, p.1.take 2 ≠ [45, 45] by decide) p hp
      rw [e] at h1; exact h1 rfl
    simp only [kindOf, this]; rfl

/-- A text is of one kind only. -/
theorem isA_unique {k k' : LexKind} {w : Text} (h : IsA k w) (h' : IsA k' w) : k = k' := by
  have := (kind_of h).symm.trans (kind_of h')
  injection this

/-- The first token of a text. -/
theorem first_unique {k k' : LexKind} {w w' r r' : Text} (h : First k w r) (h' : First k' w' r') (he : w ++ r = w' ++ r') :
    k = k' ∧ w = w' ∧ r = r' := by
  have h1 := h.longest k' w' r' he.symm h'.isA.reads
  have h2 := h'.longest k w r he h.isA.reads
  obtain ⟨rfl, rfl⟩ := List.append_inj he (Nat.le_antisymm h2 h1)
  exact ⟨isA_unique h.isA h'.isA, rfl, rfl⟩

/-! ### The sequence of tokens -/

theorem not_error {k : LexKind} {w : Text} (h : Reads k w) : k ≠ .token .error := by
  cases h with
  | literal hm => intro e; injection e with e; exact (literal_fixed hm).2.2.2.2 e
  | _ => simp

/-- The lexer's first token. -/
theorem lex_first (err : Text → Nat) {k : LexKind} {w r : Text} (h : First k w r) : lex (rules err) (w ++ r) = ⟨k, w⟩ :: lex (rules err) r := by
  have hpos := reads_pos h.isA.reads
  have hb : 0 < (best (candidates (w ++ r))).1 := Nat.lt_of_lt_of_le hpos (best_reads h.isA.reads)
  have hu := first_unique h (best_firstToken hb) (by rw [List.take_append_drop])
  have hlen := (candidate_is (best_mem hb) hb).1
  have hn : (rules err).next (w ++ r) = (k, w.length) := by
    simp only [rules]
    rw [if_neg (by omega), ← hu.1]
    have := congrArg List.length hu.2.1
    rw [List.length_take, Nat.min_eq_left hlen] at this
    rw [this]
  cases w with
  | nil => simp at hpos
  | cons b bs =>
    rw [List.cons_append] at hn ⊢
    rw [lex, hn]
    simp

/-- The lexer finds the tokens a text consists of. -/
theorem lex_of_tokens (err : Text → Nat) {s : Text} {ts : List Tok} (h : Tokens s ts) : lex (rules err) s = ts := by
  induction h with
  | nil => rw [lex]
  | cons hf _ ih => rw [lex_first err hf, ih]

/-- Where the lexer reports no error, the text consists of the lexer's tokens. -/
theorem tokens_of_lex (err : Text → Nat) : ∀ (n : Nat) (s : Text), s.length ≤ n → (∀ t ∈ lex (rules err) s, t.kind ≠ .token .error) → Tokens s (lex (rules err) s)
  | _, [], _, _ => by rw [lex]; exact .nil
  | 0, b :: bs, hn, _ => by simp at hn
  | n + 1, b :: bs, hn, h => by
    by_cases h0 : (best (candidates (b :: bs))).1 = 0
    · exfalso
      rw [lex] at h
      refine h _ List.mem_cons_self ?_
      simp [rules, h0]
    · have hf := best_firstToken (Nat.pos_of_ne_zero h0)
      have hl := lex_first err hf
      rw [List.take_append_drop] at hl
      rw [hl] at h ⊢
      have ht := tokens_of_lex err n ((b :: bs).drop (best (candidates (b :: bs))).1) (by rw [List.length_drop]; simp at hn ⊢; omega)
        (fun t ht => h t (List.mem_cons_of_mem _ ht))
      have := Tokens.cons hf ht
      rw [List.take_append_drop] at this
      exact this

/-- The first token of a text on which no pattern matches is an error. -/
theorem lex_error (err : Text → Nat) (b : UInt8) (bs : Text) (h : ∀ k w r, w ++ r = b :: bs → ¬ Reads k w) :
    ∃ w, 0 < w.length ∧ (lex (rules err) (b :: bs)).head? = some ⟨.token .error, w⟩ := by
  have h0 : (best (candidates (b :: bs))).1 = 0 := by
    refine Nat.eq_zero_of_not_pos fun h0 => ?_
    exact h _ _ _ (List.take_append_drop _ _) (best_firstToken h0).isA.reads
  refine ⟨b :: bs.take (err (b :: bs) - 1), by simp, ?_⟩
  rw [lex]
  simp [rules, h0]

end Tic.Lexer
