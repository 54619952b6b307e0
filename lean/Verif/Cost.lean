import Verif.EvalLemmas
/-
Helper: the tree-walking evaluator annotated with the number of function
applications performed.  Only used in proofs (as the step index of the logical
relation in `Logrel`); `evalC_eval` shows that forgetting the annotation gives
back `eval`.
-/
namespace Tic.Core

/-- Kinds of intrinsic arguments. -/
inductive Kind | int | str
deriving DecidableEq

/-- Does a value have this kind? -/
def Kind.check : Kind → Val → Bool
  | .int, .int _ => true
  | .str, .str _ => true
  | _, _ => false

/-- Argument kinds of the intrinsics. -/
def intrSig : Intrinsic → List Kind
  | .stringLen => [.str]
  | .stringConcat => [.str, .str]
  | .stringCharAt => [.int, .str]
  | .stringSubstring => [.int, .int, .str]
  | .stringFromChar => [.int]
  | .intToString => [.int]

/-- The part of a value that intrinsics look at. -/
inductive Atom | int (x : UInt64) | str (s : List UInt8) | other

/-- The atom of a value. -/
def Val.atom : Val → Atom
  | .int x => .int x
  | .str s => .str s
  | _ => .other

/-- The function computed by an intrinsic on arguments of the right kinds. -/
def intrAtoms : Intrinsic → List Atom → Val
  | .stringLen, [.str s] => .int (strLen s)
  | .stringConcat, [.str s, .str t] => .str (s ++ t)
  | .stringCharAt, [.int i, .str s] => .int (strCharAt i s)
  | .stringSubstring, [.int i, .int l, .str s] => .str (strSubstring i l s)
  | .stringFromChar, [.int c] => .str (strFromChar c)
  | .intToString, [.int c] => .str (intToStr c)
  | _, _ => .int 0

/-- The function computed by an intrinsic on values. -/
def intrFn (i : Intrinsic) (vs : List Val) : Val := intrAtoms i (vs.map Val.atom)

/-- Evaluating the arguments of an intrinsic, checking kinds. -/
def evalSig (ev : Expr → Res Val) : List Kind → List Expr → Res (List Val)
  | [], _ => .ok []
  | _ :: _, [] => .panic
  | k :: ks, x :: xs => (ev x).bind fun v => if k.check v then (evalSig ev ks xs).bind fun vs => .ok (v :: vs) else .panic

theorem evalIntr_eq (ev : Expr → Res Val) (i : Intrinsic) (xs : List Expr) :
    evalIntr ev i xs = (evalSig ev (intrSig i) xs).bind fun vs => .ok (intrFn i vs) := by
  cases i <;> rcases xs with _ | ⟨x, xs⟩ <;> simp only [intrSig, evalSig, evalIntr, Res.bind_panic]
  all_goals
    cases hx : ev x with
    | trap m => rfl
    | panic => rfl
    | timeout => rfl
    | ok v => ?_
    simp only [Res.bind_ok]
    cases v <;> simp [Kind.check, Val.intoStr, Val.intoInt, intrFn, intrAtoms, Val.atom]
  all_goals
    rcases xs with _ | ⟨y, xs⟩ <;> simp only [evalSig, Res.bind_panic]
    cases hy : ev y with
    | trap m => rfl
    | panic => rfl
    | timeout => rfl
    | ok w => ?_
    simp only [Res.bind_ok]
    cases w <;> simp [Kind.check, intrFn, intrAtoms, Val.atom]
  all_goals
    rcases xs with _ | ⟨z, xs⟩ <;> simp only [evalSig, Res.bind_panic]
    cases hz : ev z with
    | trap m => rfl
    | panic => rfl
    | timeout => rfl
    | ok w => ?_
    simp only [Res.bind_ok]
    cases w <;> simp [Kind.check, intrFn, intrAtoms, Val.atom]

/-- A result together with the number of applications performed so far. -/
abbrev CRes (α : Type) := Nat × Res α

/-- Sequencing adds the costs. -/
def CRes.bind {α β : Type} (x : CRes α) (f : α → CRes β) : CRes β :=
  match x with
  | (c, .ok a) => (c + (f a).1, (f a).2)
  | (c, .trap m) => (c, .trap m)
  | (c, .panic) => (c, .panic)
  | (c, .timeout) => (c, .timeout)

/-- A free result. -/
def free {α : Type} (r : Res α) : CRes α := (0, r)

/-- `evalList` with costs. -/
def evalListC (ev : Expr → CRes Val) : List Expr → CRes (List Val)
  | [] => free (.ok [])
  | e :: es => CRes.bind (ev e) fun v => CRes.bind (evalListC ev es) fun vs => free (.ok (v :: vs))

/-- `evalSig` with costs. -/
def evalSigC (ev : Expr → CRes Val) : List Kind → List Expr → CRes (List Val)
  | [], _ => free (.ok [])
  | _ :: _, [] => free .panic
  | k :: ks, x :: xs => CRes.bind (ev x) fun v =>
      if k.check v then CRes.bind (evalSigC ev ks xs) fun vs => free (.ok (v :: vs)) else free .panic

/-- The body of a function applied to arguments, with costs. -/
def bodyC (ev : Env → Expr → CRes Val) (f : Val) (args : List Val) : CRes Val :=
  match f with
  | .clo ρ ps b => if ps.length = args.length then ev (bindAll ρ ps args) b else free .panic
  | .rclo ρ self ps b =>
    if ps.length = args.length then ev ((self, .rclo ρ self ps b) :: bindAll ρ ps args) b else free .panic
  | _ => free .panic

/-- An application costs one more than its body. -/
def tick {α : Type} (r : CRes α) : CRes α := (r.1 + 1, r.2)

/-- `runBranch` with costs. -/
def runBranchC (ev : Env → Expr → CRes Val) (ρ : Env) (bs : List Branch) (c : Name) (fs : List Val) : CRes Val :=
  match findBranch c bs with
  | some br => if br.binds.length = fs.length then ev (bindAll ρ br.binds fs) br.body else free .panic
  | none => free .panic

/-- `eval` with costs. -/
def evalC : Nat → Env → Expr → CRes Val
  | 0, _, _ => free .timeout
  | n + 1, ρ, e =>
    match e with
    | .bool b => free (.ok (.bool b))
    | .int i => free (.ok (.int i))
    | .str s => free (.ok (.str s))
    | .name x => free (lookup x ρ)
    | .call f args =>
      CRes.bind (evalC n ρ f) fun fv =>
        if fv.isFn then
          CRes.bind (evalListC (evalC n ρ) args) fun vs => tick (bodyC (evalC n) fv vs)
        else free .panic
    | .ite c t e =>
      CRes.bind (evalC n ρ c) fun v => CRes.bind (free v.intoBool) fun b => if b then evalC n ρ t else evalC n ρ e
    | .op a o b =>
      CRes.bind (evalC n ρ a) fun v => CRes.bind (free v.intoInt) fun a =>
        CRes.bind (evalC n ρ b) fun v => CRes.bind (free v.intoInt) fun b => free (.ok (evalOp o a b))
    | .intr i xs => CRes.bind (evalSigC (evalC n ρ) (intrSig i) xs) fun vs => free (.ok (intrFn i vs))
    | .lam ps b => free (.ok (.clo ρ (ps.map (·.1)) b))
    | .mtch e bs =>
      CRes.bind (evalC n ρ e) fun v => CRes.bind (free v.intoComp) fun cf => runBranchC (evalC n) ρ bs cf.1 cf.2
    | .con c _ fields =>
      CRes.bind (evalListC (evalC n ρ) fields) fun vs =>
        free (if vs.length ≤ maxFields then .ok (.comp c vs) else .panic)
    | .let_ x v e => CRes.bind (evalC n ρ v) fun v => evalC n ((x, v) :: ρ) e
    | .letrec x _ v e =>
      match recLam v with
      | some (ps, b) => evalC n ((x, .rclo ρ x ps b) :: ρ) e
      | none => free .panic
    | .pi _ e => evalC n ρ e
    | .piApp e _ => evalC n ρ e
    | .trap m _ => free (.trap m)

theorem CRes.bind_snd {α β : Type} (x : CRes α) (f : α → CRes β) (g : α → Res β) (h : ∀ a, (f a).2 = g a) :
    (CRes.bind x f).2 = x.2.bind g := by
  obtain ⟨c, r⟩ := x
  cases r with
  | ok a => exact h a
  | trap m => rfl
  | panic => rfl
  | timeout => rfl

theorem evalListC_snd {ev : Expr → CRes Val} {ev' : Expr → Res Val} (h : ∀ e, (ev e).2 = ev' e) (es : List Expr) :
    (evalListC ev es).2 = evalList ev' es := by
  induction es with
  | nil => rfl
  | cons e es ih =>
    simp only [evalListC, evalList]
    rw [CRes.bind_snd _ _ _ (fun v => CRes.bind_snd _ _ _ (fun vs => rfl)), h, ih]
    rfl

theorem evalSigC_snd {ev : Expr → CRes Val} {ev' : Expr → Res Val} (h : ∀ e, (ev e).2 = ev' e) (ks : List Kind) :
    ∀ (es : List Expr), (evalSigC ev ks es).2 = evalSig ev' ks es := by
  induction ks with
  | nil => intro es; cases es <;> rfl
  | cons k ks ih =>
    intro es
    cases es with
    | nil => rfl
    | cons e es =>
      simp only [evalSigC, evalSig]
      rw [CRes.bind_snd _ _ _ ?_, h]
      intro v
      split
      · rw [CRes.bind_snd _ _ _ (fun vs => rfl), ih]; rfl
      · rfl

theorem bodyC_snd {ev : Env → Expr → CRes Val} {ev' : Env → Expr → Res Val} (h : ∀ ρ e, (ev ρ e).2 = ev' ρ e)
    (f : Val) (args : List Val) : (bodyC ev f args).2 = applyFn ev' f args := by
  cases f <;> simp only [bodyC, applyFn] <;> first | rfl | (split <;> first | exact h _ _ | rfl)

theorem runBranchC_snd {ev : Env → Expr → CRes Val} {ev' : Env → Expr → Res Val} (h : ∀ ρ e, (ev ρ e).2 = ev' ρ e)
    (ρ : Env) (bs : List Branch) (c : Name) (fs : List Val) :
    (runBranchC ev ρ bs c fs).2 = runBranch ev' ρ bs c fs := by
  unfold runBranchC runBranch
  cases findBranch c bs with
  | none => rfl
  | some br =>
    show (if _ then _ else _ : CRes Val).2 = if _ then _ else _
    split
    · exact h _ _
    · rfl

/-- Forgetting the costs gives the evaluator. -/
theorem evalC_eval : ∀ (n : Nat) (ρ : Env) (e : Expr), (evalC n ρ e).2 = eval n ρ e := by
  intro n
  induction n with
  | zero => intro ρ e; rfl
  | succ n ih =>
    intro ρ e
    cases e with
    | bool b => rfl
    | int b => rfl
    | str b => rfl
    | name b => rfl
    | lam ps b => rfl
    | trap m t => rfl
    | call f args =>
      simp only [evalC, eval]
      rw [CRes.bind_snd _ _ _ ?_, ih]
      intro fv
      split
      · rw [CRes.bind_snd _ _ _ (fun vs => ?_), evalListC_snd (ih ρ)]
        exact bodyC_snd ih fv vs
      · rfl
    | ite c t e =>
      simp only [evalC, eval]
      rw [CRes.bind_snd _ _ _ ?_, ih]
      intro v
      rw [CRes.bind_snd _ _ _ ?_]; rfl
      intro b
      cases b
      · exact ih ρ e
      · exact ih ρ t
    | op a o b =>
      simp only [evalC, eval]
      rw [CRes.bind_snd _ _ _ ?_, ih]
      intro v
      rw [CRes.bind_snd _ _ _ ?_]; rfl
      intro x
      rw [CRes.bind_snd _ _ _ ?_, ih]
      intro w
      rw [CRes.bind_snd _ _ _ (fun _ => rfl)]; rfl
    | intr i xs =>
      simp only [evalC, eval]
      rw [CRes.bind_snd _ _ _ (fun _ => rfl), evalSigC_snd (ih ρ), evalIntr_eq]; rfl
    | mtch e bs =>
      simp only [evalC, eval]
      rw [CRes.bind_snd _ _ _ ?_, ih]
      intro v
      rw [CRes.bind_snd _ _ _ ?_]; rfl
      intro cf
      exact runBranchC_snd ih ρ bs _ _
    | con c tys fs =>
      simp only [evalC, eval]
      rw [CRes.bind_snd _ _ _ (fun _ => rfl), evalListC_snd (ih ρ)]; rfl
    | let_ x v e =>
      simp only [evalC, eval]
      rw [CRes.bind_snd _ _ _ (fun v => ih _ e), ih]
    | letrec x t v e =>
      simp only [evalC, eval]
      cases recLam v with
      | none => rfl
      | some p => exact ih _ e
    | pi v e => exact ih ρ e
    | piApp e t => exact ih ρ e

end Tic.Core
