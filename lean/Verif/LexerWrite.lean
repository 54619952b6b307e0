/-
Writing tokens down: what may stand next to each other, and that the lexer reads back what was written.
-/
import Verif.LexerProof
import Verif.LowerSpec

namespace Tic.Lexer

open Tic.Parser (TokenKind TriviaKind LexKind Tok LexRules lex)

/-! ### Specification -/

/-- Blanks: spaces and the bytes of line breaks. -/
def blank (b : UInt8) : Bool := b == 32 || b == 10 || b == 13

/-- Punctuation of one character that no longer token starts with: `( ) \ , . ; : + * / %`. -/
def lone (b : UInt8) : Bool := [40, 41, 92, 44, 46, 59, 58, 43, 42, 47, 37].contains b

/-- Keywords, names and numbers. -/
structure Word (w : Text) : Prop where
  chars : ∀ c ∈ w, wordChar c = true
  ne : w ≠ []

/-- The token `w` may be followed by the text `s` without a blank of its own. -/
inductive Ends (w : Text) : Text → Prop
  | eof : Ends w []
  | blank {b s} : blank b = true → Ends w (b :: s)
  | word {b s} : Word w → wordChar b = false → Ends w (b :: s)
  | lone {b s} : lone b = true → w = [b] → Ends w s
  | punct {k b s} : (w, k) ∈ literals → (∀ c ∈ w, wordChar c = false) → wordChar b = true → Ends w (b :: s)

/-- The text is the given tokens, written with any spaces, line breaks and comments between them. -/
inductive Written : Text → List (TokenKind × Text) → Prop
  | nil : Written [] []
  | space {s ts} : Written s ts → Written (32 :: s) ts
  | newline {s ts} : Written s ts → Written (10 :: s) ts
  | crlf {s ts} : Written s ts → Written (13 :: 10 :: s) ts
  | comment {c s ts} : (∀ b ∈ c, b ≠ 10) → Written s ts → Written (45 :: 45 :: (c ++ 10 :: s)) ts
  | token {k w s ts} : IsA (.token k) w → Ends w s → Written s ts → Written (w ++ s) ((k, w) :: ts)

/-- The tokens that are neither blanks nor comments. -/
def solid (ts : List Tok) : List (TokenKind × Text) :=
  ts.filterMap fun t => match t.kind with
    | .token k => some (k, t.text)
    | .trivia _ => none

/-! ### What is longer than a token -/

theorem longer {w w' r r' : Text} (h : w' ++ r' = w ++ r) (hl : w.length < w'.length) : ∃ b x y, w' = w ++ b :: x ∧ r = b :: y := by
  rcases List.append_eq_append_iff.1 h with ⟨a, h1, h2⟩ | ⟨a, h1, h2⟩
  · have := congrArg List.length h1
    simp at this
    omega
  · cases a with
    | nil => simp at h1; subst h1; omega
    | cons b x => exact ⟨b, x, x ++ r', h1, h2⟩

/-- What has `w` as a proper start, where the next byte is `b`. -/
theorem first_of {k : LexKind} {w r : Text} (h : IsA k w) (hn : ∀ b x y k', r = b :: y → ¬ Reads k' (w ++ b :: x)) : First k w r :=
  ⟨h, fun k' w' r' he hr => by
    refine Nat.le_of_not_lt fun hl => ?_
    obtain ⟨b, x, y, h1, h2⟩ := longer he hl
    exact hn b x y k' h2 (h1 ▸ hr)⟩

theorem wordChar_blank {b : UInt8} (h : blank b = true) : wordChar b = false := by
  simp only [blank, Bool.or_eq_true, beq_iff_eq] at h
  rcases h with (rfl | rfl) | rfl <;> decide

theorem literal_no_blank {w : Text} {k : TokenKind} (h : (w, k) ∈ literals) : ∀ b ∈ w, blank b = false := by
  have := (show ∀ p ∈ literals, ∀ b ∈ p.1, blank b = false by decide) _ h
  exact this

theorem no_head (c : UInt8) (h : ∀ p ∈ literals, p.1.head? ≠ some c) {w : Text} {k : TokenKind} (hm : (w, k) ∈ literals) : w.head? ≠ some c :=
  h (w, k) hm

theorem no_dashes {w : Text} {k : TokenKind} (hm : (w, k) ∈ literals) : w.take 2 ≠ [45, 45] :=
  (show ∀ p ∈ literals, p.1.take 2 ≠ [45, 45] by decide) (w, k) hm

theorem mem_mid (w x : Text) (b : UInt8) : b ∈ w ++ b :: x := by simp

/-- The first byte of a token is no blank. -/
theorem head_solid {k : TokenKind} {b : UInt8} {bs : Text} (h : Reads (.token k) (b :: bs)) : blank b = false := by
  cases h with
  | literal hm => exact literal_no_blank hm b (by simp)
  | name hb _ =>
    refine Bool.eq_false_iff.2 fun h => ?_
    have := wordChar_blank h
    simp [wordChar, hb] at this
  | hole _ => rfl
  | number hb _ =>
    refine Bool.eq_false_iff.2 fun h => ?_
    have := wordChar_blank h
    simp [wordChar, hb] at this
  | string _ => rfl

/-- Only strings start with a quote. -/
theorem quote_string {k : LexKind} {bs : Text} (h : Reads k (34 :: bs)) : ∃ cs, (∀ c ∈ cs, c ≠ 34 ∧ c ≠ 10 ∧ c ≠ 92) ∧ bs = cs ++ [34] := by
  cases h with
  | literal hm => exact absurd rfl (no_head 34 (by decide) hm)
  | name hb _ => exact absurd hb (by decide)
  | number hb _ => exact absurd hb (by decide)
  | string h => exact ⟨_, h, rfl⟩

/-- Only comments start with two dashes. -/
theorem dashes_comment {k : LexKind} {bs : Text} (h : Reads k (45 :: 45 :: bs)) : ∀ c ∈ bs, c ≠ 10 := by
  cases h with
  | literal hm => exact absurd rfl (no_dashes hm)
  | name hb _ => exact absurd hb (by decide)
  | number hb _ => exact absurd hb (by decide)
  | comment h => exact h

/-- Only spaces start with a space. -/
theorem space_spaces {k : LexKind} {bs : Text} (h : Reads k (32 :: bs)) : ∀ c ∈ bs, c = 32 := by
  generalize hw : (32 : UInt8) :: bs = w at h
  cases h with
  | literal hm => exact absurd (by rw [← hw]; rfl) (no_head 32 (by decide) hm)
  | name hb _ => injection hw with a b; rw [← a] at hb; exact absurd hb (by decide)
  | number hb _ => injection hw with a b; rw [← a] at hb; exact absurd hb (by decide)
  | @space n =>
    rw [List.replicate_succ] at hw
    injection hw with _ hw
    rw [hw]
    exact fun c hc => List.eq_of_mem_replicate hc
  | hole | string | newline | crlf | comment => injection hw with a b; exact absurd a (by decide)

/-- Line breaks are not continued. -/
theorem newline_only {k : LexKind} {bs : Text} (h : Reads k (10 :: bs)) : bs = [] := by
  generalize hw : (10 : UInt8) :: bs = w at h
  cases h with
  | literal hm => exact absurd (by rw [← hw]; rfl) (no_head 10 (by decide) hm)
  | name hb _ => injection hw with a b; rw [← a] at hb; exact absurd hb (by decide)
  | number hb _ => injection hw with a b; rw [← a] at hb; exact absurd hb (by decide)
  | newline => injection hw with a b
  | space => rw [List.replicate_succ] at hw; injection hw with a b; exact absurd a (by decide)
  | hole | string | crlf | comment => injection hw with a b; exact absurd a (by decide)

theorem crlf_only {k : LexKind} {bs : Text} (h : Reads k (13 :: bs)) : bs = [10] := by
  generalize hw : (13 : UInt8) :: bs = w at h
  cases h with
  | literal hm => exact absurd (by rw [← hw]; rfl) (no_head 13 (by decide) hm)
  | name hb _ => injection hw with a b; rw [← a] at hb; exact absurd hb (by decide)
  | number hb _ => injection hw with a b; rw [← a] at hb; exact absurd hb (by decide)
  | crlf => injection hw with a b
  | space => rw [List.replicate_succ] at hw; injection hw with a b; exact absurd a (by decide)
  | hole | string | newline | comment => injection hw with a b; exact absurd a (by decide)

/-- A token followed by a blank is not the start of a longer one. -/
theorem blank_ends {k : TokenKind} {k' : LexKind} {w x : Text} {b : UInt8} (h : Reads (.token k) w) (hb : blank b = true) :
    ¬ Reads k' (w ++ b :: x) := by
  have hpos := reads_pos h
  cases w with
  | nil => simp at hpos
  | cons c cs =>
    have hc := head_solid h
    intro hr
    have hmem : b ∈ (c :: cs) ++ b :: x := mem_mid _ _ _
    have hnw := wordChar_blank hb
    generalize hw : (c :: cs) ++ b :: x = w' at hr hmem
    cases hr with
    | literal hm => rw [literal_no_blank hm b hmem] at hb; cases hb
    | name hl hs =>
      rcases List.mem_cons.1 hmem with rfl | hmem
      · simp [wordChar, hl] at hnw
      · rw [hs b hmem] at hnw; cases hnw
    | hole hs =>
      rcases List.mem_cons.1 hmem with rfl | hmem
      · exact absurd hb (by decide)
      · rw [hs b hmem] at hnw; cases hnw
    | number hl hs =>
      rcases List.mem_cons.1 hmem with rfl | hmem
      · simp [wordChar, hl] at hnw
      · rw [hs b hmem] at hnw; cases hnw
    | @string bs hs =>
      injection hw with h1 h2
      rw [h1] at h
      obtain ⟨ds, -, hds⟩ := quote_string h
      rw [hds] at h2
      have : bs = ds ++ 34 :: (b :: x).dropLast := by
        have := congrArg List.dropLast h2
        simpa [List.dropLast_append_of_ne_nil, List.append_assoc] using this.symm
      exact (hs 34 (by rw [this]; simp)).1 rfl
    | space =>
      rw [List.replicate_succ] at hw
      injection hw with h1 _
      rw [h1] at hc; exact absurd hc (by decide)
    | newline => injection hw with h1 _; rw [h1] at hc; exact absurd hc (by decide)
    | crlf => injection hw with h1 _; rw [h1] at hc; exact absurd hc (by decide)
    | comment hs =>
      injection hw with h1 h2
      subst h1
      cases cs with
      | nil => injection h2 with h2 _; rw [h2] at hb; exact absurd hb (by decide)
      | cons d ds =>
        injection h2 with h2 h3
        subst h2
        have := isA_unique (k := .token k) ⟨h, ?_⟩ (k' := .trivia .comment) ⟨.comment (dashes_comment h), by simp⟩
        · cases this
        · intro e; rw [e] at h
          cases h with
          | literal hm => exact absurd rfl (literal_fixed hm).1
          | name hb _ => exact absurd hb (by decide)

/-- A word followed by something else is not the start of a longer one. -/
theorem word_ends {k' : LexKind} {w x : Text} {b : UInt8} (h : Word w) (hb : wordChar b = false) : ¬ Reads k' (w ++ b :: x) := by
  obtain ⟨hc, hne⟩ := h
  obtain ⟨c, cs, rfl⟩ := List.exists_cons_of_ne_nil hne
  have hl := hc c (by simp)
  intro hr
  have hmem : b ∈ (c :: cs) ++ b :: x := mem_mid _ _ _
  generalize hw : (c :: cs) ++ b :: x = w' at hr hmem
  cases hr with
  | literal hm =>
    have := (show ∀ p ∈ literals, p.1.head?.any wordChar = true → ∀ b ∈ p.1, wordChar b = true by decide) _ hm (by rw [← hw]; simpa using hl) b hmem
    rw [this] at hb; cases hb
  | name hl hs =>
    rcases List.mem_cons.1 hmem with rfl | hmem
    · simp [wordChar, hl] at hb
    · rw [hs b hmem] at hb; cases hb
  | number hd hs =>
    rcases List.mem_cons.1 hmem with rfl | hmem
    · simp [wordChar, hd] at hb
    · rw [hs b hmem] at hb; cases hb
  | space => rw [List.replicate_succ] at hw; injection hw with h1 _; rw [h1] at hl; exact absurd hl (by decide)
  | hole | string | newline | crlf | comment => injection hw with h1 _; rw [h1] at hl; exact absurd hl (by decide)

/-- Lone punctuation is not the start of anything longer. -/
theorem lone_ends {k' : LexKind} {x : Text} {b c : UInt8} (h : lone b = true) : ¬ Reads k' (b :: c :: x) := by
  intro hr
  have hall : ∀ b : UInt8, lone b = true → (letter b || digit b || b == 63 || b == 34 || blank b || b == 45) = false := by
    intro b h
    simp only [lone, List.contains_eq_mem, List.mem_cons, List.not_mem_nil, or_false, decide_eq_true_eq] at h
    rcases h with rfl | rfl | rfl | rfl | rfl | rfl | rfl | rfl | rfl | rfl | rfl <;> decide
  have hb := hall b h
  simp only [Bool.or_eq_false_iff] at hb
  generalize hw : b :: c :: x = w' at hr
  cases hr with
  | literal hm =>
    have := (show ∀ p ∈ literals, p.1.head?.any lone = true → p.1.length ≤ 1 by decide) _ hm (by rw [← hw]; simpa using h)
    rw [← hw] at this; simp at this
  | name hl _ => injection hw with h1 _; rw [← h1] at hl; rw [hl] at hb; exact absurd hb.1.1.1.1.1 (by decide)
  | number hl _ => injection hw with h1 _; rw [← h1] at hl; rw [hl] at hb; exact absurd hb.1.1.1.1.2 (by decide)
  | space => rw [List.replicate_succ] at hw; injection hw with h1 _; rw [h1] at hb; exact absurd hb.1.2 (by decide)
  | hole => injection hw with h1 _; rw [h1] at hb; exact absurd hb.1.1.1.2 (by decide)
  | string => injection hw with h1 _; rw [h1] at hb; exact absurd hb.1.1.2 (by decide)
  | newline => injection hw with h1 _; rw [h1] at hb; exact absurd hb.1.2 (by decide)
  | crlf => injection hw with h1 _; rw [h1] at hb; exact absurd hb.1.2 (by decide)
  | comment => injection hw with h1 _; rw [h1] at hb; exact absurd hb.2 (by decide)

/-- Punctuation followed by a word is not the start of anything longer. -/
theorem punct_ends {k : TokenKind} {k' : LexKind} {w x : Text} {b : UInt8} (h : (w, k) ∈ literals) (hw : ∀ c ∈ w, wordChar c = false) (hb : wordChar b = true) :
    ¬ Reads k' (w ++ b :: x) := by
  intro hr
  have hpos := reads_pos (.literal h)
  cases w with
  | nil => simp at hpos
  | cons c cs =>
    have hc := hw c (by simp)
    have hmem : b ∈ (c :: cs) ++ b :: x := mem_mid _ _ _
    generalize he : (c :: cs) ++ b :: x = w' at hr hmem
    cases hr with
    | literal hm =>
      have := (show ∀ p ∈ literals, p.1.head?.any (fun c => !wordChar c) = true → ∀ b ∈ p.1, wordChar b = false by decide) _ hm (by rw [← he]; simpa using hc) b hmem
      rw [this] at hb; cases hb
    | name hl _ => injection he with h1 _; rw [h1] at hc; simp [wordChar, hl] at hc
    | number hl _ => injection he with h1 _; rw [h1] at hc; simp [wordChar, hl] at hc
    | hole => injection he with h1 _; subst h1; exact absurd rfl (no_head 63 (by decide) h)
    | string => injection he with h1 _; subst h1; exact absurd rfl (no_head 34 (by decide) h)
    | space => rw [List.replicate_succ] at he; injection he with h1 _; subst h1; exact absurd rfl (no_head 32 (by decide) h)
    | newline => injection he with h1 _; subst h1; exact absurd rfl (no_head 10 (by decide) h)
    | crlf => injection he with h1 _; subst h1; exact absurd rfl (no_head 13 (by decide) h)
    | comment =>
      injection he with h1 h2
      subst h1
      cases cs with
      | nil => injection h2 with h2 _; subst h2; exact absurd hb (by decide)
      | cons d ds => injection h2 with h2 _; subst h2; exact absurd rfl (no_dashes h)

/-- What `Ends` allows. -/
theorem first_ends {k : TokenKind} {w s : Text} (h : IsA (.token k) w) (he : Ends w s) : First (.token k) w s := by
  refine first_of h fun b x y k' hs hr => ?_
  cases he with
  | eof => cases hs
  | blank hb => injection hs with h1 _; subst h1; exact blank_ends h.reads hb hr
  | word hw hb => injection hs with h1 _; subst h1; exact word_ends hw hb hr
  | lone hb hw => subst hw; exact lone_ends hb hr
  | punct hm hw hb => injection hs with h1 _; subst h1; exact punct_ends hm hw hb hr

/-! ### Reading back -/

theorem solid_cons_token {k : TokenKind} {w : Text} {ts : List Tok} : solid (⟨.token k, w⟩ :: ts) = (k, w) :: solid ts := rfl
theorem solid_cons_trivia {k : TriviaKind} {w : Text} {ts : List Tok} : solid (⟨.trivia k, w⟩ :: ts) = solid ts := rfl

/-- A text starting with a space: all the spaces. -/
theorem Written.spaces {ts} : ∀ {s : Text}, Written s ts → ∃ n r, s = List.replicate n 32 ++ r ∧ Written r ts ∧ r.head? ≠ some 32
  | _, .nil => ⟨0, [], rfl, .nil, by simp⟩
  | _, .space h =>
    let ⟨n, r, e, h1, h2⟩ := h.spaces
    ⟨n + 1, r, by rw [e, List.replicate_succ, List.cons_append], h1, h2⟩
  | _, .newline h => ⟨0, _, rfl, .newline h, by simp⟩
  | _, .crlf h => ⟨0, _, rfl, .crlf h, by simp⟩
  | _, .comment a h => ⟨0, _, rfl, .comment a h, by simp⟩
  | _, .token (w := w) (s := s) a b h => ⟨0, _, rfl, .token a b h, by
    have hp := reads_pos a.reads
    have hh := a.reads
    cases w with
    | nil => simp at hp
    | cons c cs =>
      have := head_solid hh
      intro e
      have e : c = 32 := by simpa using e
      rw [e] at this; exact absurd this (by decide)⟩

theorem isA_trivia {k : TriviaKind} {w : Text} (h : Reads (.trivia k) w) : IsA (.trivia k) w := ⟨h, by simp⟩

/-- The lexer reads back what was written. -/
theorem solid_lex (err : Text → Nat) : ∀ (n : Nat) {s : Text} {ts : List (TokenKind × Text)}, s.length ≤ n → Written s ts → solid (lex (rules err) s) = ts
  | 0, s, ts, hn, h => by
    cases h with
    | nil => rw [lex]; rfl
    | token a _ _ =>
      have := reads_pos a.reads
      simp at hn; simp [hn.1] at this
    | _ => simp at hn
  | n + 1, s, ts, hn, h => by
    cases h with
    | nil => rw [lex]; rfl
    | @space s _ h =>
      obtain ⟨m, r, rfl, h1, h2⟩ := h.spaces
      have hf : First (.trivia .space) (List.replicate (m + 1) 32) r := by
        refine first_of (isA_trivia .space) fun b x y k' hr hx => ?_
        rw [List.replicate_succ, List.cons_append] at hx
        have := space_spaces hx b (by simp)
        rw [hr, this] at h2
        simp at h2
      have := lex_first err hf
      rw [List.replicate_succ, List.cons_append] at this
      rw [this, solid_cons_trivia]
      exact solid_lex err n (by simp at hn; omega) h1
    | @newline s _ h =>
      have hf : First (.trivia .newline) [10] s := first_of (isA_trivia .newline) fun b x y k' _ hx => by
        have := newline_only hx; simp at this
      rw [show (10 :: s) = [10] ++ s from rfl, lex_first err hf, solid_cons_trivia]
      exact solid_lex err n (by simp at hn; omega) h
    | @crlf s _ h =>
      have hf : First (.trivia .newline) [13, 10] s := first_of (isA_trivia .crlf) fun b x y k' _ hx => by
        have := crlf_only hx; simp at this
      rw [show (13 :: 10 :: s) = [13, 10] ++ s from rfl, lex_first err hf, solid_cons_trivia]
      exact solid_lex err n (by simp at hn; omega) h
    | @comment c s _ a h =>
      have hf : First (.trivia .comment) (45 :: 45 :: c) (10 :: s) := first_of (isA_trivia (.comment a)) fun b x y k' hr hx => by
        injection hr with hr _
        exact dashes_comment hx b (by simp) hr.symm
      rw [show (45 :: 45 :: (c ++ 10 :: s)) = (45 :: 45 :: c) ++ 10 :: s from rfl, lex_first err hf, solid_cons_trivia]
      exact solid_lex err n (by simp at hn ⊢; omega) (.newline h)
    | @token k w s ts a b h =>
      rw [lex_first err (first_ends a b), solid_cons_token]
      have := reads_pos a.reads
      rw [solid_lex err n (by simp at hn; omega) h]

end Tic.Lexer
