/-
The tokens of the language, as its author would describe them, and what it means that a text consists of given tokens.
-/
import Verif.Lexer

namespace Tic.Lexer

open Tic.Parser (TokenKind TriviaKind LexKind Tok)

/-- The texts a kind of token may have.  For fixed texts: the table `literals`. -/
inductive Reads : LexKind → Text → Prop
  | literal {w k} : (w, k) ∈ literals → Reads (.token k) w
  | name {b bs} : letter b = true → (∀ c ∈ bs, wordChar c = true) → Reads (.token .ident) (b :: bs)
  | hole {b bs} : (∀ c ∈ b :: bs, wordChar c = true) → Reads (.token .hole) (63 :: b :: bs)
  | number {b bs} : digit b = true → (∀ c ∈ bs, wordChar c = true) → Reads (.token .number) (b :: bs)
  | string {bs} : (∀ c ∈ bs, c ≠ 34 ∧ c ≠ 10 ∧ c ≠ 92) → Reads (.token .string) (34 :: (bs ++ [34]))
  | space {n} : Reads (.trivia .space) (List.replicate (n + 1) 32)
  | newline : Reads (.trivia .newline) [10]
  | crlf : Reads (.trivia .newline) [13, 10]
  | comment {bs} : (∀ c ∈ bs, c ≠ 10) → Reads (.trivia .comment) (45 :: 45 :: bs)

/-- A text is of a kind: keywords are not names. -/
structure IsA (k : LexKind) (w : Text) : Prop where
  reads : Reads k w
  notKeyword : k = .token .ident → ∀ k', (w, k') ∉ literals

/-- `w` is the first token of the text `w ++ rest`: nothing longer is a token. -/
structure First (k : LexKind) (w rest : Text) : Prop where
  isA : IsA k w
  longest : ∀ k' w' rest', w' ++ rest' = w ++ rest → Reads k' w' → w'.length ≤ w.length

/-- A text consists of tokens. -/
inductive Tokens : Text → List Tok → Prop
  | nil : Tokens [] []
  | cons {k w rest ts} : First k w rest → Tokens rest ts → Tokens (w ++ rest) (⟨k, w⟩ :: ts)

end Tic.Lexer
