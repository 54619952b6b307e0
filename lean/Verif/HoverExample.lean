/-
Hovering: examples.
-/
import Verif.PropHover
import Verif.LowerExample
import Verif.LexerExample

namespace Tic.Hover

open Tic.Parser
open Tic.Lower (tx badToks exToks)

/-- What hovering at each of some positions of a text of one item gives. -/
def at_ (toks : List Tok) (ps : List Nat) : List (List (Bool × Option (Nat × Nat))) :=
  (parseOneItem toks 0).toList.map fun r => ps.map fun pos => match exprInfo (textOf toks) id [r.1] pos with
    | .nothing => (false, none)
    | .panics => (true, none)
    | .shows sp _ => (false, some sp)

/-- `let a = match x with | B y -> f y end;` -/
def goodToks : List Tok := lex (Lexer.rules fun _ => 1) (tx "let a = match x with | B y -> f y end;")

set_option synthInstance.maxSize 4000 in
/-- Over the name: nothing.  Over `match`: the whole match.  Over `x`: it.  Between `f` and `y`: after `f` it is `f`, before `y` it is `y`. -/
example : at_ goodToks [4, 9, 14, 30, 31, 32, 33] =
    [[(false, none), (false, some (8, 37)), (false, some (14, 15)), (false, some (30, 31)), (false, some (30, 31)), (false, some (32, 33)), (false, some (32, 33))]] := by decide +kernel

/-- It has no syntax error. -/
example : (parseOneItem goodToks 0).toList.map (·.2) = [[]] := by decide +kernel

set_option synthInstance.maxSize 4000 in
/-- Finding 43: hovering over the body of a case that has no constructor, `let a = match x with | -> 1 end;`, panics. -/
theorem hover_panics : at_ badToks [14, 26] = [[(false, some (14, 15)), (true, none)]] := by decide +kernel

end Tic.Hover
