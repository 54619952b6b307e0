/-
The lexer, `ticc/src/compiler/lexer.rs`: the token patterns of the `logos` attributes (lines 6-101) and how `logos` chooses
among them: the longest match, and of two patterns that match the same text the one with the higher priority, which is
a fixed text rather than a regular expression.
-/
import Verif.Parser

namespace Tic.Lexer

open Tic.Parser (TokenKind TriviaKind LexKind LexRules)

/-- Texts are bytes. -/
abbrev Text := List UInt8

/-- The patterns that are fixed texts, `lexer.rs:6-85`, with the kinds `classify_token` (`parser.rs:281-334`) gives them. -/
def literals : List (Text × TokenKind) := [
  ([105, 109, 112, 111, 114, 116], .import_) /- import -/,
  ([102, 114, 111, 109], .from_) /- from -/,
  ([101, 120, 112, 111, 114, 116], .export_) /- export -/,
  ([108, 101, 116], .let_) /- let -/,
  ([109, 97, 116, 99, 104], .match_) /- match -/,
  ([119, 105, 116, 104], .with_) /- with -/,
  ([101, 110, 100], .end_) /- end -/,
  ([105, 102], .if_) /- if -/,
  ([116, 104, 101, 110], .then_) /- then -/,
  ([101, 108, 115, 101], .else_) /- else -/,
  ([116, 121, 112, 101], .type) /- type -/,
  ([105, 110, 116], .int) /- int -/,
  ([98, 111, 111, 108], .bool) /- bool -/,
  ([115, 116, 114, 105, 110, 103], .stringTy) /- string -/,
  ([116, 114, 117, 101], .true_) /- true -/,
  ([102, 97, 108, 115, 101], .false_) /- false -/,
  ([102, 111, 108, 100], .fold) /- fold -/,
  ([114, 101, 99], .rec_) /- rec -/,
  ([58], .colon) /- : -/,
  ([61], .equals) /- = -/,
  ([43], .plus) /- + -/,
  ([45], .minus) /- - -/,
  ([42], .star) /- * -/,
  ([47], .slash) /- / -/,
  ([37], .percent) /- % -/,
  ([60], .less) /- < -/,
  ([60, 61], .lessEq) /- <= -/,
  ([62], .greater) /- > -/,
  ([62, 61], .greaterEq) /- >= -/,
  ([61, 61], .eqEq) /- == -/,
  ([33, 61], .notEq) /- != -/,
  ([124, 62], .argPipe) /- |> -/,
  ([40], .leftParen) /- ( -/,
  ([41], .rightParen) /- ) -/,
  ([92], .backslash) /- \ -/,
  ([45, 62], .arrow) /- -> -/,
  ([124], .pipe) /- | -/,
  ([44], .comma) /- , -/,
  ([46], .dot) /- . -/,
  ([59], .semicolon) /- ; -/]

/-- `[0-9]` -/
def digit (b : UInt8) : Bool := 48 ≤ b && b ≤ 57
/-- `[a-zA-Z_]` -/
def letter (b : UInt8) : Bool := (97 ≤ b && b ≤ 122) || (65 ≤ b && b ≤ 90) || b == 95
/-- `[a-zA-Z0-9_]` -/
def wordChar (b : UInt8) : Bool := letter b || digit b
/-- `[^"\n\\]` (on text of one byte per character; all bytes of longer characters are in the class as the character is). -/
def stringChar (b : UInt8) : Bool := b != 34 && b != 10 && b != 92

/-! The length of the longest match of a pattern at the start of a text, `0` if there is none. -/

/-- A fixed text. -/
def literalLen (w s : Text) : Nat := if w.isPrefixOf s then w.length else 0

/-- `[a-zA-Z_][a-zA-Z0-9_]*`, `lexer.rs:86-87` -/
def nameLen : Text → Nat
  | [] => 0
  | b :: bs => if letter b then (bs.takeWhile wordChar).length + 1 else 0

/-- `\?[a-zA-Z0-9_]+`, `lexer.rs:88-89` -/
def holeLen : Text → Nat
  | [] => 0
  | b :: bs => if b == 63 && 0 < (bs.takeWhile wordChar).length then (bs.takeWhile wordChar).length + 1 else 0

/-- `[0-9][a-zA-Z0-9_]*`, `lexer.rs:90-91` -/
def numberLen : Text → Nat
  | [] => 0
  | b :: bs => if digit b then (bs.takeWhile wordChar).length + 1 else 0

/-- `"[^"\n\\]*"`, `lexer.rs:92-93` -/
def stringLen : Text → Nat
  | [] => 0
  | b :: bs =>
    if b == 34 then
      match bs.dropWhile stringChar with
      | c :: _ => if c == 34 then (bs.takeWhile stringChar).length + 2 else 0
      | [] => 0
    else 0

/-- ` +`, `lexer.rs:94-95` -/
def spaceLen (s : Text) : Nat := (s.takeWhile (· == 32)).length

/-- `\r?\n`, `lexer.rs:96-97` -/
def newlineLen : Text → Nat
  | [] => 0
  | b :: bs => if b == 10 then 1 else if b == 13 && bs.head? == some 10 then 2 else 0

/-- `--[^\n]*`, `lexer.rs:98-99` -/
def commentLen : Text → Nat
  | b :: c :: bs => if b == 45 && c == 45 then (bs.takeWhile (· != 10)).length + 2 else 0
  | _ => 0

/-- The matches of the fixed texts. -/
def fixedMatches (s : Text) : List (Nat × LexKind) := literals.map fun p => (literalLen p.1 s, .token p.2)

/-- The matches of the regular expressions. -/
def regexMatches (s : Text) : List (Nat × LexKind) :=
  [(nameLen s, .token .ident), (holeLen s, .token .hole), (numberLen s, .token .number), (stringLen s, .token .string),
   (spaceLen s, .trivia .space), (newlineLen s, .trivia .newline), (commentLen s, .trivia .comment)]

/-- The matches of all patterns, those of higher priority first. -/
def candidates (s : Text) : List (Nat × LexKind) := fixedMatches s ++ regexMatches s

/-- The longest one, and the first of equally long ones. -/
def best : List (Nat × LexKind) → Nat × LexKind
  | [] => (0, .token .error)
  | c :: cs => if (best cs).1 ≤ c.1 then c else best cs

/-- `Lexer::next`, `lexer.rs:118-131`.  Where nothing matches there is an error token; how much of the text it takes is not
said in the repository, it is the parameter `err`. -/
def rules (err : Text → Nat) : LexRules where
  next s := if (best (candidates s)).1 = 0 then (.token .error, err s) else ((best (candidates s)).2, (best (candidates s)).1)

end Tic.Lexer
