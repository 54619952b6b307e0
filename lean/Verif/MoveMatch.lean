import Verif.MergeMatch
/-
`ticc/src/codegen/opt/move_match.rs`.
-/
namespace Tic.Core

mutual
/-- `is_simple`, `move_match.rs:43-73`. -/
def moveSimple (f : Name) : Expr → Bool
  | .bool _ => true
  | .int _ => true
  | .str _ => true
  | .name _ => true
  | .trap _ _ => true
  | .call g xs => moveSimpleL f xs && (match g with | .name n => decide (n = f) | _ => false)
  | .intr _ xs => moveSimpleL f xs
  | .con _ _ xs => moveSimpleL f xs
  | .mtch e bs => moveSimple f e && moveSimpleB f bs
  | .pi _ e => moveSimple f e
  | .piApp e _ => moveSimple f e
  | _ => false
/-- ... for all expressions of a list. -/
def moveSimpleL (f : Name) : List Expr → Bool
  | [] => true
  | e :: es => moveSimple f e && moveSimpleL f es
/-- ... for all branches. -/
def moveSimpleB (f : Name) : List Branch → Bool
  | [] => true
  | .mk _ _ e :: bs => moveSimple f e && moveSimpleB f bs
end

/-- Under the lambdas found by `unwrap_lambdas` (`move_match.rs:75-81`): the test and `move_let`,
`move_match.rs:14-20` and `27-41`. -/
def moveIn (f : Name) : Expr → Expr
  | .lam ps b => .lam ps (moveIn f b)
  | .let_ x v (.lam ps b) => if moveSimple f v then .lam ps (.let_ x v b) else .let_ x v (.lam ps b)
  | e => e

/-- `optimize_expr`, `move_match.rs:10-25`; `none` where it panics. -/
def moveStep : Expr → Option Expr
  | .letrec f t (.lam ps b) e => some (.letrec f t (.lam ps (moveIn f b)) e)
  | .letrec _ _ _ _ => none
  | e => some e

/-- `move_match::optimize`, `move_match.rs:4-8`; `none` where it panics.
`walkPre_moveMatch_eq` shows that the bound on the walk is never reached. -/
def moveMatch (p : Program) : Option Program := mapDefsO (fun e => walkPreO (esize e) moveStep e) p

end Tic.Core
