import Verif.Treewalk
/-
The order of evaluation that the bytecode has: the arguments of a call before the function
(`compile.rs:128-158`), where `treewalk.rs:83-92` evaluates the function first.  A reference semantics
for the bytecode; everything else is as in `eval`.
-/
namespace Tic.Core

/-- Big-step evaluation with the arguments of a call evaluated before the function. -/
def evalA : Nat → Env → Expr → Res Val
  | 0, _, _ => .timeout
  | n + 1, ρ, e =>
    match e with
    | .bool b => .ok (.bool b)
    | .int i => .ok (.int i)
    | .str s => .ok (.str s)
    | .name x => lookup x ρ
    | .call f args =>
      (evalList (evalA n ρ) args).bind fun vs =>
        (evalA n ρ f).bind fun fv => if fv.isFn then applyFn (evalA n) fv vs else .panic
    | .ite c t e =>
      (evalA n ρ c).bind fun v => v.intoBool.bind fun b => if b then evalA n ρ t else evalA n ρ e
    | .op a o b =>
      (evalA n ρ a).bind fun v => v.intoInt.bind fun a =>
        (evalA n ρ b).bind fun v => v.intoInt.bind fun b => .ok (evalOp o a b)
    | .intr i xs => evalIntr (evalA n ρ) i xs
    | .lam ps b => .ok (.clo ρ (ps.map (·.1)) b)
    | .mtch e bs =>
      (evalA n ρ e).bind fun v => v.intoComp.bind fun cf => runBranch (evalA n) ρ bs cf.1 cf.2
    | .con c _ fields =>
      (evalList (evalA n ρ) fields).bind fun vs =>
        if vs.length ≤ maxFields then .ok (.comp c vs) else .panic
    | .let_ x v e => (evalA n ρ v).bind fun v => evalA n ((x, v) :: ρ) e
    | .letrec x _ v e =>
      match recLam v with
      | some (ps, b) => evalA n ((x, .rclo ρ x ps b) :: ρ) e
      | none => .panic
    | .pi _ e => evalA n ρ e
    | .piApp e _ => evalA n ρ e
    | .trap m _ => .trap m

/-- The definitions of a program, in order. -/
def evalDefsA (n : Nat) : List ValueDef → Env → Res Env
  | [], ρ => .ok ρ
  | d :: ds, ρ => (evalA n ρ d.value).bind fun v => evalDefsA n ds ((d.name, v) :: ρ)

/-- Programs. -/
def evalProgramA (n : Nat) (p : Program) (exprs : List Expr) : Res (List Val) :=
  (evalDefsA n p.defs []).bind fun ρ => evalList (evalA n ρ) exprs

end Tic.Core
