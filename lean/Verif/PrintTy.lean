/-
How types are printed in hovers and messages, `ticc/src/api.rs:55-129`.
-/
import Verif.Unify
import Verif.LexerWrite

namespace Tic.Print

open Tic.Unify (Symbol IrTy)
open Tic.Lexer (Text)

/-- Definitions of the compiled file as `find_def` sees them (`api.rs:44-53`): for each item the symbols of its definitions and
the source texts of the definitions' spans. -/
abbrev Defs := List (List (Symbol × Text))

/-- `find_def`, `api.rs:44-53`, and the text of the definition's span. -/
def findDef (ds : Defs) (s : Symbol) : Option Text :=
  ds.findSome? fun item => item.findSome? fun d => if d.1 = s then some d.2 else none

/-- `TypePrinter::name_cache`. -/
abbrev Cache := List (Symbol × Text)

/-- `???` -/
def unknown : Text := [63, 63, 63]

/-- `lookup_name`, `api.rs:117-128`. -/
def lookupName (ds : Defs) (c : Cache) (s : Symbol) : Text × Cache :=
  match c.lookup s with
  | some n => (n, c)
  | none => match findDef ds s with
    | none => (unknown, c)
    | some n => (n, (s, n) :: c)

/-- `if` a condition then `to.push(b)`. -/
def pushIf (b : Bool) (x : UInt8) : Text := if b then [x] else []

mutual
/-- `print_type_prec`, `api.rs:75-115`: what is pushed, and the cache afterwards. -/
def printPrec (ds : Defs) (c : Cache) : IrTy → Nat → Text × Cache
  | .int, _ => ([105, 110, 116], c) -- int
  | .bool, _ => ([98, 111, 111, 108], c) -- bool
  | .str, _ => ([115, 116, 114, 105, 110, 103], c) -- string
  | .named t a, prec =>
    let n := lookupName ds c t
    let as := printArgs ds n.2 a
    (pushIf (2 ≤ prec && 0 < a.length) 40 ++ n.1 ++ as.1 ++ pushIf (2 ≤ prec && 0 < a.length) 41, as.2)
  | .fn a b, prec =>
    let x := printPrec ds c a 1
    let y := printPrec ds x.2 b 0
    (pushIf (1 ≤ prec) 40 ++ x.1 ++ [32, 45, 62, 32] ++ y.1 ++ pushIf (1 ≤ prec) 41, y.2)
  | .error, _ => ([63], c) -- ?
  | .infer, _ => ([95], c) -- _
  | .folded a b, _ =>
    let x := printPrec ds c a 0
    let y := printPrec ds x.2 b 0
    ([123] ++ x.1 ++ [32, 61, 62, 32] ++ y.1 ++ [125], y.2)
/-- The loop over the arguments, `api.rs:86-89`. -/
def printArgs (ds : Defs) (c : Cache) : List IrTy → Text × Cache
  | [] => ([], c)
  | t :: ts =>
    let x := printPrec ds c t 2
    let y := printArgs ds x.2 ts
    (32 :: x.1 ++ y.1, y.2)
end

/-- `print_type`, `api.rs:68-70`. -/
def printType (ds : Defs) (c : Cache) (t : IrTy) : Text × Cache := printPrec ds c t 0

end Tic.Print
