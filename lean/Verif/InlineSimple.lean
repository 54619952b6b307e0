import Verif.Walk
import Verif.OptSpec
/-
`ticc/src/codegen/opt/inline_simple.rs`.
-/
namespace Tic.Core

/-- `is_lambda`, `inline_simple.rs:42-48`. -/
def isLambda : Expr → Bool
  | .lam _ _ => true
  | .pi _ e => isLambda e
  | _ => false

mutual
/-- `count_uses`, `inline_simple.rs:58-97`; `ls` is `lambda_single`. -/
def uses (x : Name) (ls : Bool) : Expr → Nat
  | .bool _ => 0
  | .int _ => 0
  | .str _ => 0
  | .trap _ _ => 0
  | .name y => if y = x then 1 else 0
  | .call f xs => uses x ls f + usesL x ls xs
  | .intr _ xs => usesL x ls xs
  | .op a _ b => uses x ls a + uses x ls b
  | .let_ _ a b => uses x ls a + uses x ls b
  | .letrec _ _ a b => uses x ls a + uses x ls b
  | .ite a b c => uses x ls a + uses x ls b + uses x ls c
  | .lam _ a => if ls then uses x ls a else if uses x ls a = 0 then 0 else 1000
  | .mtch a bs => uses x ls a + usesB x ls bs
  | .con _ _ xs => usesL x ls xs
  | .pi _ a => uses x ls a
  | .piApp a _ => uses x ls a
/-- ... summed over a list. -/
def usesL (x : Name) (ls : Bool) : List Expr → Nat
  | [] => 0
  | e :: es => uses x ls e + usesL x ls es
/-- ... summed over the branches. -/
def usesB (x : Name) (ls : Bool) : List Branch → Nat
  | [] => 0
  | .mk _ _ e :: bs => uses x ls e + usesB x ls bs
end

/-- What `replace_use` does at one node, `inline_simple.rs:101-103`.  The Rust code hands out
the value once and would panic at a second use; here every use is replaced, and the
callers make sure that there is exactly one. -/
def replUseNode (x : Name) (b : Expr) : Expr → Expr
  | .name y => if y = x then b else .name y
  | e => e

/-- `replace_use`, `inline_simple.rs:99-105`. -/
def replUse (x : Name) (b e : Expr) : Expr := walkPost (replUseNode x b) e

/-- The first rewriting, `inline_simple.rs:15-28`. -/
def inlineSimple1 : Expr → Expr
  | .let_ x b r => if uses x (isLambda b) r = 1 then replUse x b r else .let_ x b r
  | e => e

/-- The second rewriting, `inline_simple.rs:29-39`. -/
def inlineSimple2 : Expr → Expr
  | .let_ x (.lam ps c) r => if uses x true r = 1 then replUse x (.lam ps c) r else .let_ x (.lam ps c) r
  | e => e

/-- `optimize_expr`, `inline_simple.rs:14-40`. -/
def inlineSimpleStep (e : Expr) : Expr := inlineSimple2 (inlineSimple1 e)

/-- `inline_simple::optimize`, `inline_simple.rs:8-12`.  The walk is bounded by the size of
the expression; `walkPre_inlineSimple_eq` shows that the bound is never reached. -/
def inlineSimple (p : Program) : Program := mapDefs (fun e => walkPreN (esize e) inlineSimpleStep e) p

end Tic.Core
