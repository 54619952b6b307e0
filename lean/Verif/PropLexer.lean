/-
C51: the lexer finds the longest tokens, and programs can be laid out at will: from the text of a file to the items its
author wrote.
-/
import Verif.LexerWrite
import Verif.PropLower
import Verif.LowerUniq

namespace Tic.Lexer

open Tic.Parser (TokenKind TriviaKind LexKind Tok LexRules lex Phases)
open Tic.Lower (SItem wordsOf carries ShowsItem Each fileItems)

/-- **C51**, tokens.  The lexer's tokens, when there is no error among them, are exactly those a text consists of: each is of its
kind, and as long as possible. -/
theorem lexer_exact (err : Text → Nat) (s : Text) (ts : List Tok) :
    Tokens s ts ↔ lex (rules err) s = ts ∧ ∀ t ∈ ts, t.kind ≠ .token .error := by
  refine ⟨fun h => ⟨lex_of_tokens err h, ?_⟩, fun ⟨h, he⟩ => ?_⟩
  · induction h with
    | nil => simp
    | cons hf _ ih =>
      intro t ht
      rcases List.mem_cons.1 ht with rfl | ht
      · exact not_error hf.isA.reads
      · exact ih t ht
  · subst h; exact tokens_of_lex err _ s (Nat.le_refl _) he

/-- **C51**, errors: the lexer reports an error exactly where nothing can be read. -/
theorem lexer_error (err : Text → Nat) (b : UInt8) (bs : Text) :
    (∃ w ts, lex (rules err) (b :: bs) = ⟨.token .error, w⟩ :: ts) ↔ ∀ k w r, w ++ r = b :: bs → ¬ Reads k w := by
  refine ⟨fun ⟨w, ts, h⟩ k' w' r' he hr => ?_, fun h => ?_⟩
  · have hb : 0 < (best (candidates (b :: bs))).1 := by
      have := best_reads (r := r') hr
      rw [he] at this
      exact Nat.lt_of_lt_of_le (reads_pos hr) this
    have hf := best_firstToken hb
    have := lex_first err hf
    rw [List.take_append_drop, h] at this
    injection this with this _
    injection this with this _
    exact not_error hf.isA.reads this.symm
  · obtain ⟨w, -, hw⟩ := lex_error err b bs h
    cases hl : lex (rules err) (b :: bs) with
    | nil => rw [hl] at hw; simp at hw
    | cons t ts => rw [hl] at hw; simp at hw; exact ⟨w, ts, by rw [hw]⟩

/-- **C51**, layout.  However tokens are laid out, the lexer gives those tokens. -/
theorem layout_free (err : Text → Nat) {s : Text} {ts : List (TokenKind × Text)} (h : Written s ts) : solid (lex (rules err) s) = ts :=
  solid_lex err _ (Nat.le_refl _) h

/-! ### From text to programs -/

/-- The part of a token the grammar looks at. -/
def word (t : TokenKind × Text) : TokenKind × Option Text := (t.1, if carries t.1 then some t.2 else none)

theorem words_solid (ts : List Tok) : wordsOf ts = (solid ts).map word := by
  induction ts with
  | nil => rfl
  | cons t ts ih =>
    obtain ⟨k, w⟩ := t
    cases k with
    | token k => rw [solid_cons_token, List.map_cons, ← ih]; rfl
    | trivia k => rw [solid_cons_trivia, ← ih]; rfl

section
variable {S D I : Type}

/-- **C51**, from the text of a file to its items.  Take properly bracketed items `ps`, written one after another with any
spaces, line breaks and comments between their tokens.  Whatever was requested before, compiling the file ends, finds no syntax
error, and the accessors show the items `ps`. -/
theorem text_read {p : Phases S D I} (hp : p.Lawful) (err : Text → Nat) (os : List Nat) {src : Text} {ts : List (TokenKind × Text)} {ps : List SItem}
    (hw : Written src ts) (hts : ts.map word = ps.flatMap (·.tree.words)) (hps : ∀ i ∈ ps, i.Bracketed) :
    ∃ before items, p.requests (rules err) src os [] = some before ∧ p.compileUpTo (rules err) src src.length before = some items ∧
      (∀ i ∈ items, p.parseErrors i = []) ∧ Each ShowsItem (fileItems p src items) ps := by
  obtain ⟨before, items, h1, h2, h3, h4⟩ := Lower.file_reads_back hp (rules err) src os
  have he : wordsOf (lex (rules err) src) = ps.flatMap (·.tree.words) := by rw [words_solid, layout_free err hw, hts]
  exact ⟨before, items, h1, h2, h3.2 ⟨ps, hps, he⟩, h4 ps hps he⟩
end

/-- The text of a fixed token. -/
def spell (k : TokenKind) : Text := ((literals.find? fun p => p.2 == k).map Prod.fst).getD []

/-- A word can be written: its text is of its kind, or its kind has a fixed text. -/
def Writable : TokenKind × Option Text → Prop
  | (k, some t) => carries k = true ∧ IsA (.token k) t
  | (k, none) => k ≠ .error ∧ carries k = false

/-- The token that is written for a word. -/
def tokenFor (w : TokenKind × Option Text) : TokenKind × Text := (w.1, w.2.getD (spell w.1))

/-- A space after each token. -/
def spaced : List (TokenKind × Text) → Text
  | [] => []
  | t :: ts => t.2 ++ 32 :: spaced ts

theorem spell_isA {k : TokenKind} (h1 : k ≠ .error) (h2 : carries k = false) : IsA (.token k) (spell k) := by
  have : (spell k, k) ∈ literals := by cases k <;> first | decide | exact absurd rfl h1 | cases h2
  exact ⟨.literal this, fun e => by injection e with e; rw [e] at h2; cases h2⟩

theorem word_tokenFor {w : TokenKind × Option Text} (h : Writable w) : word (tokenFor w) = w ∧ IsA (.token w.1) (tokenFor w).2 := by
  obtain ⟨k, t⟩ := w
  cases t with
  | none => exact ⟨by simp [word, tokenFor, h.2], spell_isA h.1 h.2⟩
  | some t => exact ⟨by simp [word, tokenFor, h.1], h.2⟩

theorem written_spaced : ∀ {ws : List (TokenKind × Option Text)}, (∀ w ∈ ws, Writable w) → Written (spaced (ws.map tokenFor)) (ws.map tokenFor)
  | [], _ => .nil
  | w :: ws, h => .token (word_tokenFor (h w (by simp))).2 (.blank (by decide)) (.space (written_spaced fun v hv => h v (by simp [hv])))

/-- **C51**, every program can be written: if the names, numbers, strings and holes of properly bracketed items have texts of
their kinds, there is a text that is read as these items. -/
theorem can_be_written {ps : List SItem} (h : ∀ i ∈ ps, ∀ w ∈ i.tree.words, Writable w) :
    ∃ src ts, Written src ts ∧ ts.map word = ps.flatMap (·.tree.words) := by
  have h' : ∀ w ∈ ps.flatMap (·.tree.words), Writable w := fun w hw => by
    obtain ⟨i, hi, hw⟩ := List.mem_flatMap.1 hw
    exact h i hi w hw
  refine ⟨_, _, written_spaced h', ?_⟩
  rw [List.map_map]
  exact (List.map_congr_left fun w hw => (word_tokenFor (h' w hw)).1).trans (List.map_id _)

/-! ### The characters of words -/

/-- What is a letter to the language. -/
def letters : Text := "abcdefghijklmnopqrstuvwxyzABCDEFGHIJKLMNOPQRSTUVWXYZ_".toList.map fun c => UInt8.ofNat c.toNat

/-- What is a digit. -/
def digits : Text := "0123456789".toList.map fun c => UInt8.ofNat c.toNat

theorem all_bytes {p : UInt8 → Prop} (h : ∀ n < 256, p (UInt8.ofNat n)) (b : UInt8) : p b := by
  have := h b.toNat b.toNat_lt
  rwa [UInt8.ofNat_toNat] at this

set_option maxRecDepth 4000 in
/-- **C51**, letters. -/
theorem letter_exact : ∀ b : UInt8, letter b = true ↔ b ∈ letters := all_bytes (by decide +kernel)

set_option maxRecDepth 4000 in
/-- **C51**, digits. -/
theorem digit_exact : ∀ b : UInt8, digit b = true ↔ b ∈ digits := all_bytes (by decide +kernel)

/-- **C51**, the characters of names after the first. -/
theorem wordChar_exact (b : UInt8) : wordChar b = true ↔ b ∈ letters ∨ b ∈ digits := by
  rw [wordChar, Bool.or_eq_true, letter_exact, digit_exact]

end Tic.Lexer
