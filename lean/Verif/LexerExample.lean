/-
The lexer on concrete texts; a file that meets the hypotheses of C51.
-/
import Verif.PropLexer
import Verif.LowerExample

namespace Tic.Lexer

open Tic.Parser (TokenKind TriviaKind LexKind Tok LexRules lex Phases)
open Tic.Lower (tx exToks exItem SItem)

example : lex (rules fun _ => 1) (tx "let f : a.b int = 12 - x * (h m.y);\n") = exToks := by decide +kernel

/-- Keywords are not names, but may start names; the longest operator is taken. -/
example : (lex (rules fun _ => 1) (tx "let letter lets <= < = ==- --->|x\n|>?h1 \"a -- b\" 12ab")).map (·.kind) =
    [.token .let_, .trivia .space, .token .ident, .trivia .space, .token .ident, .trivia .space, .token .lessEq, .trivia .space, .token .less,
     .trivia .space, .token .equals, .trivia .space, .token .eqEq, .token .minus, .trivia .space, .trivia .comment, .trivia .newline, .token .argPipe,
     .token .hole, .trivia .space, .token .string, .trivia .space, .token .number] := by decide +kernel

/-- A string that does not end is an error, so is a lone question mark. -/
example : (lex (rules fun _ => 1) (tx "\"ab ?")).map (·.kind) = [.token .error, .token .ident, .trivia .space, .token .error] := by decide +kernel

/-- Checking that a text is of a kind by lexing it. -/
theorem isA_of {k : LexKind} {w : Text} (h : best (candidates w) = (w.length, k)) (hw : w ≠ []) : IsA k w := by
  have hp : 0 < (best (candidates w)).1 := by rw [h]; exact List.length_pos_iff.2 hw
  have := (best_firstToken hp).isA
  rw [h] at this
  simpa using this

/-- A program: `export let id = \ x -> x;`. -/
def exId : SItem := .value true (tx "id") none (.lambda false (tx "x") (.name (tx "x")))

theorem exId_bracketed : exId.Bracketed := by
  have := Grammar.Item.value (x := [.tok .export_]) .some .none (.lam (.op (.app (.atom .name))))
  exact this

/-- Its tokens. -/
def exIdToks : List (TokenKind × Text) :=
  [(.export_, tx "export"), (.let_, tx "let"), (.ident, tx "id"), (.equals, tx "="), (.backslash, tx "\\"), (.ident, tx "x"), (.arrow, tx "->"),
   (.ident, tx "x"), (.semicolon, tx ";")]

example : exIdToks.map word = [exId].flatMap (·.tree.words) := by decide +kernel

/-- It is written with comments, in several lines, and with no more blanks than needed. -/
theorem exId_written : Written (tx "-- one\nexport let--two\n\n  id= \\x ->x;") exIdToks := by
  have e : ∀ {s : Text} {ts} (w r : Text), s = w ++ r → Written (w ++ r) ts → Written s ts := fun _ _ h h' => h ▸ h'
  refine .comment (c := tx " one") (by decide) ?_
  refine e (tx "export") _ rfl (.token (isA_of (by decide +kernel) (by decide)) (.blank (by decide)) (.space ?_))
  refine e (tx "let") _ rfl (.token (isA_of (by decide +kernel) (by decide)) (.word ⟨by decide, by decide⟩ (by decide)) ?_)
  refine .comment (c := tx "two") (by decide) (.newline (.space (.space ?_)))
  refine e (tx "id") _ rfl (.token (isA_of (by decide +kernel) (by decide)) (.word ⟨by decide, by decide⟩ (by decide)) ?_)
  refine e (tx "=") _ rfl (.token (isA_of (by decide +kernel) (by decide)) (.blank (by decide)) (.space ?_))
  refine e (tx "\\") _ rfl (.token (isA_of (by decide +kernel) (by decide)) (.lone (b := 92) (by decide) rfl) ?_)
  refine e (tx "x") _ rfl (.token (isA_of (by decide +kernel) (by decide)) (.blank (by decide)) (.space ?_))
  refine e (tx "->") _ rfl (.token (isA_of (by decide +kernel) (by decide)) (.punct (k := .arrow) (by decide) (by decide) (by decide)) ?_)
  refine e (tx "x") _ rfl (.token (isA_of (by decide +kernel) (by decide)) (.word ⟨by decide, by decide⟩ (by decide)) ?_)
  refine e (tx ";") _ rfl (.token (isA_of (by decide +kernel) (by decide)) .eof .nil)

/-- Its names can be written. -/
example : ∀ i ∈ [exId], ∀ w ∈ i.tree.words, Writable w := by
  intro i hi w hw
  rw [List.mem_singleton] at hi
  subst hi
  have : exId.tree.words = [(.export_, none), (.let_, none), (.ident, some (tx "id")), (.equals, none), (.backslash, none), (.ident, some (tx "x")),
    (.arrow, none), (.ident, some (tx "x")), (.semicolon, none)] := by decide +kernel
  rw [this] at hw
  simp only [List.mem_cons, List.not_mem_nil, or_false] at hw
  rcases hw with rfl | rfl | rfl | rfl | rfl | rfl | rfl | rfl | rfl
  all_goals first
    | exact ⟨by decide, by decide⟩
    | exact ⟨by decide, isA_of (by decide +kernel) (by decide)⟩

end Tic.Lexer
