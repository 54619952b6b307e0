import Verif.OptSpec
/-
The two reduction passes, `ticc/src/codegen/opt/reduce_pi.rs` and `reduce_apply.rs`.
-/
namespace Tic.Core

/-! ### `reduce_pi.rs` -/

mutual
/-- `replace_ty_in_ty`, `reduce_pi.rs:92-117`. -/
def replTy (var : TyVar) (wth : Ty) : Ty → Ty
  | .var v => if v = var then wth else .var v
  | .bool => .bool
  | .int => .int
  | .string => .string
  | .named n ts => .named n (replTys var wth ts)
  | .fn ps out => .fn (replTys var wth ps) (replTy var wth out)
  | .abs v t => .abs v (replTy var wth t)
/-- ... for the lists of types inside. -/
def replTys (var : TyVar) (wth : Ty) : List Ty → List Ty
  | [] => []
  | t :: ts => replTy var wth t :: replTys var wth ts
end

/-- What `replace_ty_in_expr` does at one node, `reduce_pi.rs:60-90`. -/
def replNode (var : TyVar) (wth : Ty) : Expr → Expr
  | .lam ps b => .lam (ps.map fun p => (p.1, replTy var wth p.2)) b
  | .letrec n t v e => .letrec n (replTy var wth t) v e
  | .piApp e t => .piApp e (replTy var wth t)
  | .trap m t => .trap m (replTy var wth t)
  | .con c ts xs => .con c (ts.map (replTy var wth)) xs
  | e => e

/-- `replace_ty_in_expr`, `reduce_pi.rs:60-90`.  The Rust code visits a node before its
children; since the node function never changes which children there are, the
order makes no difference and the model walks children first. -/
def replExpr (var : TyVar) (wth : Ty) (e : Expr) : Expr := walkPost (replNode var wth) e

/-- `can_apply`, `reduce_pi.rs:32-38`. -/
def canApplyPi : Expr → Bool
  | .pi _ _ => true
  | .let_ _ _ e => canApplyPi e
  | _ => false

/-- `apply_pi`, `reduce_pi.rs:40-50`. -/
def applyPi (arg : Ty) : Expr → Expr
  | .pi v e => replExpr v arg e
  | .let_ n v e => .let_ n v (applyPi arg e)
  | e => e

/-- `optimize_expr`, `reduce_pi.rs:14-22`. -/
def reducePiStep : Expr → Expr
  | .piApp a t => if canApplyPi a then applyPi t a else .piApp a t
  | e => e

/-- `reduce_pi::optimize`, `reduce_pi.rs:8-12`. -/
def reducePi (p : Program) : Program := mapDefs (walkPost reducePiStep) p

/-! ### `reduce_apply.rs` -/

/-- `can_apply`, `reduce_apply.rs:32-38`. -/
def canApply : Expr → Bool
  | .lam _ _ => true
  | .let_ _ _ e => canApply e
  | _ => false

/-- The loop of `apply` (`reduce_apply.rs:45-48`): nested `let`s, first parameter outermost. -/
def bindLets : List Name → List Expr → Expr → Expr
  | n :: ns, a :: as, body => .let_ n a (bindLets ns as body)
  | _, _, body => body

/-- `apply`, `reduce_apply.rs:40-54`.  The `assert_eq!` on the number of arguments
is modelled by leaving the call alone (`none`). -/
def apply (args : List Expr) : Expr → Option Expr
  | .lam ps body => if ps.length = args.length then some (bindLets (ps.map (·.1)) args body) else none
  | .let_ n v e => (apply args e).map (.let_ n v)
  | _ => none

/-- `optimize_expr`, `reduce_apply.rs:14-22`. -/
def reduceApplyStep : Expr → Expr
  | .call a args => if canApply a then (apply args a).getD (.call a args) else .call a args
  | e => e

/-- `reduce_apply::optimize`, `reduce_apply.rs:8-12`. -/
def reduceApply (p : Program) : Program := mapDefs (walkPost reduceApplyStep) p

end Tic.Core
