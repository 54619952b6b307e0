import Verif.Walk
import Verif.OptSpec
/-
`ticc/src/codegen/opt/dce.rs`.
-/
namespace Tic.Core

/-- Visiting with a bound on the depth. -/
def visitN : Nat → Expr → List Expr
  | 0, _ => []
  | n + 1, e => e :: (children e).flatMap fun c => visitN n c.2

/-- The expressions handed to the callback of `walk_expressions`, `opt.rs:64-116`, in order.
`visit_eq` shows that the bound is never reached. -/
def visit (e : Expr) : List Expr := visitN (esize e) e

/-- `mark_used`, `dce.rs:57-63`: the names marked, in order. -/
def namesOf (e : Expr) : List Name := (visit e).filterMap fun
  | .name x => some x
  | _ => none

/-- The local definitions collected by `dce.rs:20-27`. -/
def letsOf (e : Expr) : List (Name × Expr) := (visit e).filterMap fun
  | .let_ n v _ => some (n, v)
  | _ => none

/-- `all_defs`, `dce.rs:18-28`, in order of insertion. -/
def allDefs (p : Program) : List (Name × Expr) := p.defs.flatMap fun d => (d.name, d.value) :: letsOf d.value

/-- `HashMap::get` on a list of insertions: the last one counts. -/
def lastGet (x : Name) (l : List (Name × Expr)) : Option Expr := (l.reverse.find? fun a => a.1 = x).map (·.2)

/-- `pending` after `dce.rs:13-17`; the head of the list is the end of the vector. -/
def dceRoots (p : Program) : List Name := ((p.defs.filter (·.exportName.isSome)).map (·.name)).reverse

/-- The loop `dce.rs:29-38`, with a bound on the number of turns. -/
def dceLoop (all : List (Name × Expr)) : Nat → List Name → List Name → List Name
  | 0, _, used => used
  | _ + 1, [], used => used
  | n + 1, x :: pending, used =>
    if x ∈ used then dceLoop all n pending used
    else match lastGet x all with
      | some v => dceLoop all n ((namesOf v).reverse ++ pending) (x :: used)
      | none => dceLoop all n pending (x :: used)

/-- Enough turns; `dceUsed_spec` shows that the bound is never reached. -/
def dceFuel (p : Program) : Nat := (dceRoots p).length + ((allDefs p).map fun a => (namesOf a.2).length).sum

/-- `used` after the loop. -/
def dceUsed (p : Program) : List Name := dceLoop (allDefs p) (dceFuel p) (dceRoots p) []

/-- The `loop` in `remove_unused_locals`, `dce.rs:45-54`. -/
def dropUnused (used : List Name) : Expr → Expr
  | .let_ n v r => if n ∈ used then .let_ n v r else dropUnused used r
  | e => e

/-- `remove_unused_locals`, `dce.rs:43-55`. -/
def removeUnused (used : List Name) (e : Expr) : Expr := walkPreN (esize e) (dropUnused used) e

/-- `dce::optimize`, `dce.rs:7-41`. -/
def dce (p : Program) : Program :=
  { p with defs := (p.defs.filter fun d => d.name ∈ dceUsed p).map fun d => { d with value := removeUnused (dceUsed p) d.value } }

end Tic.Core
