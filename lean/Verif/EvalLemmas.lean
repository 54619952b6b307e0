import Verif.Treewalk
/-
Helper lemmas about the evaluator: more fuel never changes a finished result.
-/
namespace Tic.Core

/-- `r'` is at least as defined as `r`. -/
def Res.Le {α : Type} (r r' : Res α) : Prop := r = .timeout ∨ r = r'

theorem Res.Le.refl {α : Type} (r : Res α) : r.Le r := .inr rfl
theorem Res.Le.timeout {α : Type} (r : Res α) : Res.Le .timeout r := .inl rfl
theorem Res.Le.trans {α : Type} {a b c : Res α} (h : a.Le b) (h' : b.Le c) : a.Le c := by
  rcases h with rfl | rfl
  · exact .inl rfl
  · exact h'
theorem Res.Le.eq {α : Type} {a b : Res α} (h : a.Le b) (hn : a ≠ .timeout) : b = a := by
  rcases h with h | h
  · exact absurd h hn
  · exact h.symm

theorem Res.Le.bind {α β : Type} {r r' : Res α} {f f' : α → Res β} (h : r.Le r')
    (hf : ∀ a, r = .ok a → (f a).Le (f' a)) : (r.bind f).Le (r'.bind f') := by
  rcases h with rfl | rfl
  · exact .inl rfl
  · cases r with
    | ok a => exact hf a rfl
    | trap m => exact .inr rfl
    | panic => exact .inr rfl
    | timeout => exact .inl rfl

@[simp] theorem Res.bind_ok {α β : Type} (a : α) (f : α → Res β) : (Res.ok a).bind f = f a := rfl
@[simp] theorem Res.bind_trap {α β : Type} (m : String) (f : α → Res β) : (Res.trap m : Res α).bind f = .trap m := rfl
@[simp] theorem Res.bind_panic {α β : Type} (f : α → Res β) : (Res.panic : Res α).bind f = .panic := rfl
@[simp] theorem Res.bind_timeout {α β : Type} (f : α → Res β) : (Res.timeout : Res α).bind f = .timeout := rfl

theorem Res.bind_assoc {α β γ : Type} (r : Res α) (f : α → Res β) (g : β → Res γ) :
    (r.bind f).bind g = r.bind fun a => (f a).bind g := by
  cases r <;> rfl

theorem Res.bind_eq_ok {α β : Type} {r : Res α} {f : α → Res β} {b : β} :
    r.bind f = .ok b ↔ ∃ a, r = .ok a ∧ f a = .ok b := by
  cases r <;> simp [Res.bind]

theorem Res.bind_eq_trap {α β : Type} {r : Res α} {f : α → Res β} {m : String} :
    r.bind f = .trap m ↔ r = .trap m ∨ ∃ a, r = .ok a ∧ f a = .trap m := by
  cases r <;> simp [Res.bind]

/-! Unfolding one step. -/
theorem eval_name {n ρ x} : eval (n + 1) ρ (.name x) = lookup x ρ := rfl
theorem eval_call {n ρ f args} : eval (n + 1) ρ (.call f args) =
    (eval n ρ f).bind fun fv => if fv.isFn then
      (evalList (eval n ρ) args).bind fun vs => applyFn (eval n) fv vs else .panic := rfl
theorem eval_ite {n ρ c t e} : eval (n + 1) ρ (.ite c t e) =
    (eval n ρ c).bind fun v => v.intoBool.bind fun b => if b then eval n ρ t else eval n ρ e := rfl
theorem eval_op {n ρ a o b} : eval (n + 1) ρ (.op a o b) =
    (eval n ρ a).bind fun v => v.intoInt.bind fun a =>
      (eval n ρ b).bind fun v => v.intoInt.bind fun b => .ok (evalOp o a b) := rfl
theorem eval_intr {n ρ i xs} : eval (n + 1) ρ (.intr i xs) = evalIntr (eval n ρ) i xs := rfl
theorem eval_lam {n ρ ps b} : eval (n + 1) ρ (.lam ps b) = .ok (.clo ρ (ps.map (·.1)) b) := rfl
theorem eval_mtch {n ρ e bs} : eval (n + 1) ρ (.mtch e bs) =
    (eval n ρ e).bind fun v => v.intoComp.bind fun cf => runBranch (eval n) ρ bs cf.1 cf.2 := rfl
theorem eval_con {n ρ c tys fs} : eval (n + 1) ρ (.con c tys fs) =
    (evalList (eval n ρ) fs).bind fun vs => if vs.length ≤ maxFields then .ok (.comp c vs) else .panic := rfl
theorem eval_let {n ρ x v e} : eval (n + 1) ρ (.let_ x v e) =
    (eval n ρ v).bind fun v => eval n ((x, v) :: ρ) e := rfl
theorem eval_letrec {n ρ x t v e} : eval (n + 1) ρ (.letrec x t v e) =
    match recLam v with
    | some (ps, b) => eval n ((x, .rclo ρ x ps b) :: ρ) e
    | none => .panic := rfl
theorem eval_pi {n ρ v e} : eval (n + 1) ρ (.pi v e) = eval n ρ e := rfl
theorem eval_piApp {n ρ e t} : eval (n + 1) ρ (.piApp e t) = eval n ρ e := rfl

theorem evalList_le {ev ev' : Expr → Res Val} (h : ∀ e, (ev e).Le (ev' e)) (es : List Expr) :
    (evalList ev es).Le (evalList ev' es) := by
  induction es with
  | nil => exact .refl _
  | cons e es ih => exact (h e).bind fun v _ => ih.bind fun vs _ => .refl _

theorem applyFn_le {ev ev' : Env → Expr → Res Val} (h : ∀ ρ e, (ev ρ e).Le (ev' ρ e)) (f : Val) (args : List Val) :
    (applyFn ev f args).Le (applyFn ev' f args) := by
  cases f <;> simp only [applyFn] <;> try exact .refl _
  all_goals
    split
    · exact h _ _
    · exact .refl _

theorem evalIntr_le {ev ev' : Expr → Res Val} (h : ∀ e, (ev e).Le (ev' e)) (i : Intrinsic) (xs : List Expr) :
    (evalIntr ev i xs).Le (evalIntr ev' i xs) := by
  cases xs with
  | nil => cases i <;> exact .refl _
  | cons x xs =>
    cases i with
    | stringLen => exact (h x).bind fun v _ => .refl _
    | stringFromChar => exact (h x).bind fun v _ => .refl _
    | intToString => exact (h x).bind fun v _ => .refl _
    | stringConcat =>
      refine (h x).bind fun v _ => (Res.Le.refl _).bind fun s _ => ?_
      cases xs with
      | nil => exact .refl _
      | cons y xs => exact (h y).bind fun v _ => .refl _
    | stringCharAt =>
      refine (h x).bind fun v _ => (Res.Le.refl _).bind fun s _ => ?_
      cases xs with
      | nil => exact .refl _
      | cons y xs => exact (h y).bind fun v _ => .refl _
    | stringSubstring =>
      refine (h x).bind fun v _ => (Res.Le.refl _).bind fun s _ => ?_
      cases xs with
      | nil => exact .refl _
      | cons y xs =>
        refine (h y).bind fun v _ => (Res.Le.refl _).bind fun s _ => ?_
        cases xs with
        | nil => exact .refl _
        | cons z xs => exact (h z).bind fun v _ => .refl _

theorem runBranch_le {ev ev' : Env → Expr → Res Val} (h : ∀ ρ e, (ev ρ e).Le (ev' ρ e)) (ρ : Env)
    (bs : List Branch) (c : Name) (fs : List Val) : (runBranch ev ρ bs c fs).Le (runBranch ev' ρ bs c fs) := by
  unfold runBranch
  split
  · split
    · exact h _ _
    · exact .refl _
  · exact .refl _

theorem eval_le_succ : ∀ (n : Nat) (ρ : Env) (e : Expr), (eval n ρ e).Le (eval (n + 1) ρ e) := by
  intro n
  induction n with
  | zero => intro ρ e; exact .timeout _
  | succ n ih =>
    intro ρ e
    cases e with
    | bool b => exact .refl _
    | int b => exact .refl _
    | str b => exact .refl _
    | name b => exact .refl _
    | lam ps b => exact .refl _
    | trap m t => exact .refl _
    | call f args =>
      refine (ih ρ f).bind fun fv _ => ?_
      split
      · exact (evalList_le (ih ρ) args).bind fun vs _ => applyFn_le ih fv vs
      · exact .refl _
    | ite c t e =>
      refine (ih ρ c).bind fun v _ => (Res.Le.refl _).bind fun b _ => ?_
      split
      · exact ih ρ t
      · exact ih ρ e
    | op a o b =>
      exact (ih ρ a).bind fun v _ => (Res.Le.refl _).bind fun x _ => (ih ρ b).bind fun w _ => .refl _
    | intr i xs => exact evalIntr_le (ih ρ) i xs
    | mtch e bs =>
      refine (ih ρ e).bind fun v _ => (Res.Le.refl _).bind fun p _ => ?_
      exact runBranch_le ih ρ bs _ _
    | con c tys fs =>
      exact (evalList_le (ih ρ) fs).bind fun vs _ => .refl _
    | let_ x v e => exact (ih ρ v).bind fun v _ => ih _ e
    | letrec x t v e =>
      show Res.Le (match recLam v with | some (ps, b) => _ | none => _) (match recLam v with | some (ps, b) => _ | none => _)
      split
      · exact ih _ e
      · exact .refl _
    | pi v e => exact ih ρ e
    | piApp e t => exact ih ρ e

theorem eval_le {n m : Nat} (h : n ≤ m) (ρ : Env) (e : Expr) : (eval n ρ e).Le (eval m ρ e) := by
  induction h with
  | refl => exact .refl _
  | step _ ih => exact ih.trans (eval_le_succ _ ρ e)

/-- More fuel does not change a finished evaluation. -/
theorem eval_mono {n m : Nat} (h : n ≤ m) {ρ : Env} {e : Expr} {r : Res Val} (he : eval n ρ e = r)
    (hr : r ≠ .timeout) : eval m ρ e = r := by
  rw [← he] at hr ⊢
  exact (eval_le h ρ e).eq hr

theorem eval_mono_ok {n m : Nat} (h : n ≤ m) {ρ : Env} {e : Expr} {v : Val} (he : eval n ρ e = .ok v) :
    eval m ρ e = .ok v := eval_mono h he (by simp)

theorem evalList_mono {n m : Nat} (h : n ≤ m) {ρ : Env} {es : List Expr} {r : Res (List Val)}
    (he : evalList (eval n ρ) es = r) (hr : r ≠ .timeout) : evalList (eval m ρ) es = r := by
  rw [← he] at hr ⊢
  exact (evalList_le (eval_le h ρ) es).eq hr

theorem applyFn_mono {n m : Nat} (h : n ≤ m) {f : Val} {vs : List Val} {r : Res Val}
    (he : applyFn (eval n) f vs = r) (hr : r ≠ .timeout) : applyFn (eval m) f vs = r := by
  rw [← he] at hr ⊢
  exact (applyFn_le (fun ρ e => eval_le h ρ e) f vs).eq hr

theorem evalDefs_le {n m : Nat} (h : n ≤ m) (ds : List ValueDef) : ∀ ρ, (evalDefs n ds ρ).Le (evalDefs m ds ρ) := by
  induction ds with
  | nil => intro ρ; exact .refl _
  | cons d ds ih => intro ρ; exact (eval_le h ρ _).bind fun v _ => ih _

/-- Results are unique. -/
theorem eval_det {n m : Nat} {ρ : Env} {e : Expr} {r r' : Res Val} (h : eval n ρ e = r) (hr : r ≠ .timeout)
    (h' : eval m ρ e = r') (hr' : r' ≠ .timeout) : r = r' := by
  rcases Nat.le_total n m with hl | hl
  · rw [eval_mono hl h hr] at h'; exact h'
  · rw [eval_mono hl h' hr'] at h; exact h.symm

end Tic.Core
