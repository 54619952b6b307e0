import Verif.BytecodeProg
import Verif.PropLambda
import Verif.PropInlineSimple
/-
C08: the bytecode compiler, linker and machine agree with the tree-walking evaluator.
-/
namespace Tic.Core

/-! ## The order of evaluation does not matter for values -/

/-- Two computations give the same values, if they give one. -/
def Res.SameOk {α : Type} (r r' : Res α) : Prop := ∀ a, r = .ok a ↔ r' = .ok a

theorem Res.SameOk.refl {α : Type} (r : Res α) : r.SameOk r := fun _ => .rfl

theorem Res.SameOk.bind {α β : Type} {r r' : Res α} {f f' : α → Res β} (h : r.SameOk r')
    (hf : ∀ a, r = .ok a → (f a).SameOk (f' a)) : (r.bind f).SameOk (r'.bind f') := by
  intro b
  rw [Res.bind_eq_ok, Res.bind_eq_ok]
  constructor
  · rintro ⟨a, h1, h2⟩
    exact ⟨a, (h a).1 h1, (hf a h1 b).1 h2⟩
  · rintro ⟨a, h1, h2⟩
    exact ⟨a, (h a).2 h1, (hf a ((h a).2 h1) b).2 h2⟩

theorem evalList_same {ev ev' : Expr → Res Val} (h : ∀ e, (ev e).SameOk (ev' e)) (es : List Expr) :
    (evalList ev es).SameOk (evalList ev' es) := by
  induction es with
  | nil => exact .refl _
  | cons e es ih => exact (h e).bind fun v _ => ih.bind fun vs _ => .refl _

theorem applyFn_same {ev ev' : Env → Expr → Res Val} (h : ∀ ρ e, (ev ρ e).SameOk (ev' ρ e)) (f : Val) (args : List Val) :
    (applyFn ev f args).SameOk (applyFn ev' f args) := by
  cases f <;> simp only [applyFn] <;> try exact .refl _
  all_goals
    split
    · exact h _ _
    · exact .refl _

theorem evalIntr_same {ev ev' : Expr → Res Val} (h : ∀ e, (ev e).SameOk (ev' e)) (i : Intrinsic) (xs : List Expr) :
    (evalIntr ev i xs).SameOk (evalIntr ev' i xs) := by
  cases xs with
  | nil => cases i <;> exact .refl _
  | cons x xs =>
    cases i with
    | stringLen => exact (h x).bind fun v _ => .refl _
    | stringFromChar => exact (h x).bind fun v _ => .refl _
    | intToString => exact (h x).bind fun v _ => .refl _
    | stringConcat =>
      refine (h x).bind fun v _ => (Res.SameOk.refl _).bind fun s _ => ?_
      cases xs with
      | nil => exact .refl _
      | cons y xs => exact (h y).bind fun v _ => .refl _
    | stringCharAt =>
      refine (h x).bind fun v _ => (Res.SameOk.refl _).bind fun s _ => ?_
      cases xs with
      | nil => exact .refl _
      | cons y xs => exact (h y).bind fun v _ => .refl _
    | stringSubstring =>
      refine (h x).bind fun v _ => (Res.SameOk.refl _).bind fun s _ => ?_
      cases xs with
      | nil => exact .refl _
      | cons y xs =>
        refine (h y).bind fun v _ => (Res.SameOk.refl _).bind fun s _ => ?_
        cases xs with
        | nil => exact .refl _
        | cons z xs => exact (h z).bind fun v _ => .refl _

theorem runBranch_same {ev ev' : Env → Expr → Res Val} (h : ∀ ρ e, (ev ρ e).SameOk (ev' ρ e)) (ρ : Env)
    (bs : List Branch) (c : Name) (fs : List Val) : (runBranch ev ρ bs c fs).SameOk (runBranch ev' ρ bs c fs) := by
  unfold runBranch
  split
  · split
    · exact h _ _
    · exact .refl _
  · exact .refl _

/-- Evaluating the arguments of calls first gives the same values. -/
theorem eval_evalA : ∀ (n : Nat) (ρ : Env) (e : Expr), (eval n ρ e).SameOk (evalA n ρ e) := by
  intro n
  induction n with
  | zero => intro ρ e; exact .refl _
  | succ n ih =>
    intro ρ e
    cases e with
    | bool b => exact .refl _
    | int b => exact .refl _
    | str b => exact .refl _
    | name b => exact .refl _
    | lam ps b => exact .refl _
    | trap m t => exact .refl _
    | call f args =>
      intro v
      rw [eval_call, evalA]
      constructor
      · intro h
        obtain ⟨fv, h1, h⟩ := Res.bind_eq_ok.1 h
        split at h
        · rename_i hf
          obtain ⟨vs, h2, h3⟩ := Res.bind_eq_ok.1 h
          rw [(evalList_same (ih ρ) args vs).1 h2, Res.bind_ok, (ih ρ f fv).1 h1, Res.bind_ok, if_pos hf]
          exact (applyFn_same ih fv vs v).1 h3
        · cases h
      · intro h
        obtain ⟨vs, h2, h⟩ := Res.bind_eq_ok.1 h
        obtain ⟨fv, h1, h⟩ := Res.bind_eq_ok.1 h
        rw [(ih ρ f fv).2 h1, Res.bind_ok]
        split at h
        · rename_i hf
          rw [if_pos hf, (evalList_same (ih ρ) args vs).2 h2, Res.bind_ok]
          exact (applyFn_same ih fv vs v).2 h
        · cases h
    | ite c t e =>
      refine (ih ρ c).bind fun v _ => (Res.SameOk.refl _).bind fun b _ => ?_
      split
      · exact ih ρ t
      · exact ih ρ e
    | op a o b =>
      exact (ih ρ a).bind fun v _ => (Res.SameOk.refl _).bind fun x _ => (ih ρ b).bind fun w _ => .refl _
    | intr i xs => exact evalIntr_same (ih ρ) i xs
    | mtch e bs => exact (ih ρ e).bind fun v _ => (Res.SameOk.refl _).bind fun cf _ => runBranch_same ih ρ bs _ _
    | con c tys fs => exact (evalList_same (ih ρ) fs).bind fun vs _ => .refl _
    | let_ x v e => exact (ih ρ v).bind fun v _ => ih _ e
    | letrec x t v e =>
      rw [eval_letrec, evalA]
      cases recLam v with
      | none => exact .refl _
      | some pb => exact ih _ e
    | pi a e => exact ih ρ e
    | piApp e t => exact ih ρ e

theorem evalDefs_evalDefsA (n : Nat) : ∀ (ds : List ValueDef) (ρ : Env), (evalDefs n ds ρ).SameOk (evalDefsA n ds ρ)
  | [], _ => .refl _
  | d :: ds, ρ => (eval_evalA n ρ d.value).bind fun v _ => evalDefs_evalDefsA n ds _

/-- The same for programs. -/
theorem program_same (n : Nat) (p : Program) (es : List Expr) : (evalProgram n p es).SameOk (evalProgramA n p es) :=
  (evalDefs_evalDefsA n p.defs []).bind fun ρ _ => evalList_same (eval_evalA n ρ) es

/-! ## The bytecode evaluator -/

namespace Bc

theorem vmRun_exit {P : Lk} {k : Nat} {s t : VM} {st : List TVal} (h : Steps P.lp k s t) (ht : P.step t = .exit st) {m : Nat}
    (hm : k < m) : vmRun P.lops P.st.consts m s = .ok st := by
  obtain ⟨m, rfl⟩ : ∃ j, m = k + (j + 1) := ⟨m - k - 1, by omega⟩
  rw [vmRun_steps _ h, vmRun]
  rw [Lk.step] at ht
  rw [ht]

theorem vmRun_trap {P : Lk} {k : Nat} {s t : VM} {msg : String} (h : Steps P.lp k s t) (ht : P.step t = .trap msg) {m : Nat}
    (hm : k < m) : vmRun P.lops P.st.consts m s = .trap msg := by
  obtain ⟨m, rfl⟩ : ∃ j, m = k + (j + 1) := ⟨m - k - 1, by omega⟩
  rw [vmRun_steps _ h, vmRun]
  rw [Lk.step] at ht
  rw [ht]

end Bc
open Bc

/-- The bytecode evaluator against evaluation with arguments first: values (of the whole run), traps with
their message, and running on for ever. -/
theorem bytecode_argsFirst {p : Program} {es : List Expr} (h : BcProgram p es) :
    (∀ n vs, evalProgramA n p es = .ok vs → ∃ N, ∀ m, (m ≤ N → bytecodeEval m p es = .timeout) ∧
      (N < m → bytecodeEval m p es = .ok (obsList vs))) ∧
    (∀ n msg, evalProgramA n p es = .trap msg → ∃ N, ∀ m, (m ≤ N → bytecodeEval m p es = .timeout) ∧
      (N < m → bytecodeEval m p es = .trap msg)) ∧
    ((∀ n, evalProgramA n p es = .timeout) → ∀ m, bytecodeEval m p es = .timeout) := by
  obtain ⟨ops, P, h1, h2, h3, hP, hsim⟩ := run_program h
  have hE : ∀ m, bytecodeEval m p es = (vmRun P.lops P.st.consts m ⟨0, []⟩).bind fun stack =>
      if es.length ≤ stack.length then
        match decodeL P.st.ctors (stack.take es.length).reverse with
        | some os => .ok os
        | none => .panic
      else .panic := by
    intro m
    rw [bytecodeEval]
    simp only [h1, h2]
    rfl
  have hshort : ∀ {k t m}, Steps P.lp k ⟨0, []⟩ t → m ≤ k → bytecodeEval m p es = .timeout := by
    intro k t m hk hm
    rw [hE, vmRun_short hk hm]
    rfl
  refine ⟨fun n vs hv => ?_, fun n msg hv => ?_, fun hv m => ?_⟩
  · have := hsim n
    rw [hv] at this
    obtain ⟨k, t, hk, ws, S, hr, hl, ht⟩ := this
    refine ⟨k, fun m => ⟨hshort hk, fun hm => ?_⟩⟩
    have e : ((ws.reverse ++ S).take es.length).reverse = ws := by
      rw [List.take_append_of_le_length (by simp [hl]), List.take_of_length_le (by simp [hl]), List.reverse_reverse]
    rw [hE, vmRun_exit hk ht hm, Res.bind_ok, if_pos (by simp [hl]), e, show decodeL P.st.ctors ws = some (obsList vs) from hr.decode hP.lp]
  · have := hsim n
    rw [hv] at this
    obtain ⟨k, t, hk, ht⟩ := this
    refine ⟨k, fun m => ⟨hshort hk, fun hm => ?_⟩⟩
    rw [hE, vmRun_trap hk ht hm]
    rfl
  · have := hsim (m * (P.D + 1) + P.D)
    rw [hv] at this
    obtain ⟨k, t, hk, hb⟩ := this
    exact hshort hk (Nat.le_of_mul_le_mul_right (show m * (P.D + 1) ≤ k * (P.D + 1) from by have hb : m * (P.D + 1) + P.D ≤ k * (P.D + 1) + P.D := hb; omega) (Nat.succ_pos _))


/-- Results of the bytecode evaluator do not depend on how long one is prepared to wait. -/
theorem bytecodeEval_stable {p : Program} {es : List Expr} {m m' : Nat} (h : bytecodeEval m p es ≠ .timeout) (hm : m ≤ m') :
    bytecodeEval m' p es = bytecodeEval m p es := by
  have hrun : ∀ (ops : List LOp) (consts : List (List UInt8)) (m m' : Nat) (s : VM), m ≤ m' →
      vmRun ops consts m s ≠ .timeout → vmRun ops consts m' s = vmRun ops consts m s := by
    intro ops consts m
    induction m with
    | zero => intro m' s _ h; exact absurd rfl h
    | succ m ih =>
      intro m' s hm hn
      obtain ⟨m', rfl⟩ : ∃ j, m' = j + 1 := ⟨m' - 1, by omega⟩
      rw [vmRun] at hn ⊢
      rw [vmRun]
      cases hv : vmStep ops consts s with
      | next s' =>
        rw [hv] at hn
        exact ih m' s' (by omega) hn
      | exit st => rfl
      | trap msg => rfl
      | stuck => rfl
  rw [bytecodeEval] at h ⊢
  rw [bytecodeEval]
  cases hc : compileProgram p es with
  | none => rfl
  | some ops =>
    rw [hc] at h
    cases hl : link ops with
    | none => simp only [hl]
    | some ls =>
      simp only [hl] at h ⊢
      rw [hrun ls.1 ls.2.consts m m' ⟨0, []⟩ hm]
      intro e
      rw [e] at h
      exact h rfl

/-- **C08, compilation.** Compiling and linking a well-named program never panics. -/
theorem bytecode_compiles {p : Program} {es : List Expr} (h : BcProgram p es) :
    ∃ ops lops st, compileProgram p es = some ops ∧ link ops = some (lops, st) := by
  obtain ⟨ops, P, h1, h2, _⟩ := run_program h
  exact ⟨ops, _, _, h1, h2⟩

/-- **C08, values.** If the tree-walking evaluator computes values, the bytecode evaluator computes the
same ones, after some number of machine steps. -/
theorem bytecode_same_values {p : Program} {es : List Expr} (h : BcProgram p es) {n : Nat} {vs : List Val}
    (hv : evalProgram n p es = .ok vs) : ∃ N, ∀ m, N < m → bytecodeEval m p es = .ok (obsList vs) := by
  obtain ⟨N, hN⟩ := (bytecode_argsFirst h).1 n vs ((program_same n p es vs).1 hv)
  exact ⟨N, fun m hm => (hN m).2 hm⟩

/-- **C08, no other results.** Whatever the bytecode evaluator returns, if the tree-walking evaluator
returns a value at all, it is that one. -/
theorem bytecode_only_values {p : Program} {es : List Expr} (h : BcProgram p es) {n m : Nat} {vs : List Val}
    (hv : evalProgram n p es = .ok vs) (hm : bytecodeEval m p es ≠ .timeout) : bytecodeEval m p es = .ok (obsList vs) := by
  obtain ⟨N, hN⟩ := bytecode_same_values h hv
  rw [← bytecodeEval_stable hm (Nat.le_max_left m (N + 1))]
  exact hN _ (by omega)

/-- **C08, exactly the same values**, for programs in which nothing can go wrong: the values are those
of the tree-walking evaluator, and if it does not terminate, or traps, there are none. -/
theorem bytecode_values_iff {p : Program} {es : List Expr} (h : BcProgram p es)
    (hp : ∀ n, evalProgramA n p es ≠ .panic) (os : List Obs) :
    (∃ m, bytecodeEval m p es = .ok os) ↔ ∃ n, seen (evalProgram n p es) = .ok os := by
  constructor
  · rintro ⟨m, hm⟩
    obtain ⟨h1, h2, h3⟩ := bytecode_argsFirst h
    by_cases hall : ∀ n, evalProgramA n p es = .timeout
    · rw [h3 hall m] at hm
      cases hm
    · obtain ⟨n, hn⟩ := Classical.not_forall.1 hall
      refine ⟨n, ?_⟩
      cases hr : evalProgramA n p es with
      | ok vs =>
        have hv := (program_same n p es vs).2 hr
        have := bytecode_only_values h hv (m := m) (by rw [hm]; exact fun h => nomatch h)
        rw [hm] at this
        cases this
        rw [hv]
        rfl
      | trap msg =>
        obtain ⟨N, hN⟩ := h2 n msg hr
        have e1 := bytecodeEval_stable (m := m) (m' := max m (N + 1)) (by rw [hm]; exact fun h => nomatch h) (by omega)
        rw [(hN _).2 (by omega), hm] at e1
        cases e1
      | panic => exact absurd hr (hp n)
      | timeout => exact absurd hr hn
  · rintro ⟨n, hn⟩
    cases hr : evalProgram n p es with
    | ok vs =>
      rw [hr] at hn
      cases hn
      obtain ⟨N, hN⟩ := bytecode_same_values h hr
      exact ⟨N + 1, hN _ (by omega)⟩
    | trap msg => rw [hr] at hn; cases hn
    | panic => rw [hr] at hn; cases hn
    | timeout => rw [hr] at hn; cases hn

/-- **C08, traps.** Where the tree-walking evaluator traps the bytecode evaluator never returns a value:
it traps as well, possibly with another message, or does not terminate.  (Or panics, in programs in
which evaluation with arguments first does.) -/
theorem bytecode_traps {p : Program} {es : List Expr} (h : BcProgram p es) (hp : ∀ n, evalProgramA n p es ≠ .panic)
    {n : Nat} {msg : String} (ht : evalProgram n p es = .trap msg) :
    (∃ msg' N, ∀ m, N < m → bytecodeEval m p es = .trap msg') ∨ (∀ m, bytecodeEval m p es = .timeout) := by
  obtain ⟨h1, h2, h3⟩ := bytecode_argsFirst h
  by_cases hall : ∀ n, evalProgramA n p es = .timeout
  · exact .inr (h3 hall)
  · obtain ⟨k, hk⟩ := Classical.not_forall.1 hall
    cases hr : evalProgramA k p es with
    | ok vs =>
      have hv := (program_same k p es vs).2 hr
      have e2 := outcome_unique (n := n) (m := k) (p := p) (es := es) (by rw [ht]; simp) (by rw [hv]; simp)
      rw [ht, hv] at e2
      cases e2
    | trap msg' =>
      obtain ⟨N, hN⟩ := h2 k msg' hr
      exact .inl ⟨msg', N, fun m hm => (hN m).2 hm⟩
    | panic => exact absurd hr (hp k)
    | timeout => exact absurd hr hk


/-! ## Concrete cases -/

mutual
/-- does a test hold of every subexpression? -/
def allSub (P : Expr → Bool) : Expr → Bool
  | .call f xs => P (.call f xs) && allSub P f && allSubL P xs
  | .ite c t e => P (.ite c t e) && allSub P c && allSub P t && allSub P e
  | .op a o b => P (.op a o b) && allSub P a && allSub P b
  | .intr i xs => P (.intr i xs) && allSubL P xs
  | .lam ps b => P (.lam ps b) && allSub P b
  | .mtch e bs => P (.mtch e bs) && allSub P e && allSubB P bs
  | .con c ts xs => P (.con c ts xs) && allSubL P xs
  | .let_ x v e => P (.let_ x v e) && allSub P v && allSub P e
  | .letrec x t v e => P (.letrec x t v e) && allSub P v && allSub P e
  | .pi a e => P (.pi a e) && allSub P e
  | .piApp e t => P (.piApp e t) && allSub P e
  | .bool b => P (.bool b)
  | .int i => P (.int i)
  | .str i => P (.str i)
  | .name x => P (.name x)
  | .trap m t => P (.trap m t)
def allSubL (P : Expr → Bool) : List Expr → Bool
  | [] => true
  | e :: es => allSub P e && allSubL P es
def allSubB (P : Expr → Bool) : List Branch → Bool
  | [] => true
  | .mk _ _ e :: bs => allSub P e && allSubB P bs
end

theorem allSubL_mem {P : Expr → Bool} : ∀ {es : List Expr}, allSubL P es = true → ∀ e ∈ es, allSub P e = true
  | [], _, _, h => nomatch h
  | e :: es, h, x, hx => by
    simp only [allSubL, Bool.and_eq_true] at h
    rcases List.mem_cons.1 hx with rfl | hx
    · exact h.1
    · exact allSubL_mem h.2 x hx

theorem allSubB_mem {P : Expr → Bool} : ∀ {bs : List Branch}, allSubB P bs = true → ∀ b ∈ bs, allSub P b.body = true
  | [], _, _, h => nomatch h
  | .mk c ns e :: bs, h, x, hx => by
    simp only [allSubB, Bool.and_eq_true] at h
    rcases List.mem_cons.1 hx with rfl | hx
    · exact h.1
    · exact allSubB_mem h.2 x hx

theorem allSub_ok {P : Expr → Bool} (e : Expr) : allSub P e = true → ∀ s, SubE s e → P s = true := by
  induction e using Expr.childInd with
  | _ e ih =>
    intro h s hs
    have hch : P e = true ∧ ∀ c ∈ children e, allSub P c.2 = true := by
      refine ⟨by cases e <;> simp only [allSub, Bool.and_eq_true] at h <;> simp [h], ?_⟩
      intro c hc
      cases e <;> simp only [children, List.mem_cons, List.mem_map, List.not_mem_nil, or_false] at hc <;>
        simp only [allSub, Bool.and_eq_true] at h
      case call f xs =>
        rcases hc with rfl | ⟨x, hx, rfl⟩
        · exact h.1.2
        · exact allSubL_mem h.2 x hx
      case ite => rcases hc with rfl | rfl | rfl <;> simp [h]
      case op => rcases hc with rfl | rfl <;> simp [h]
      case intr => obtain ⟨x, hx, rfl⟩ := hc; exact allSubL_mem h.2 x hx
      case lam => subst hc; exact h.2
      case mtch =>
        rcases hc with rfl | ⟨x, hx, rfl⟩
        · exact h.1.2
        · exact allSubB_mem h.2 x hx
      case con => obtain ⟨x, hx, rfl⟩ := hc; exact allSubL_mem h.2 x hx
      case let_ => rcases hc with rfl | rfl <;> simp [h]
      case letrec => rcases hc with rfl | rfl <;> simp [h]
      case pi => subst hc; exact h.2
      case piApp => subst hc; exact h.2
    rcases SubE.cases_iff.1 hs with rfl | ⟨c, hc, hs'⟩
    · exact hch.1
    · exact ih c hc (hch.2 c hc) s hs'

/-- decides `BcShape` -/
def bcShapeB (e : Expr) : Bool :=
  allSub (fun s => match s with
    | .intr i xs => decide (xs.length = i.arity)
    | .letrec x _ v _ =>
      match recLam v with
      | some (ps, b) => allSub (fun s => match s with
        | .call (.name y) xs => decide (y = x → xs.length = ps.length)
        | _ => true) b
      | none => true
    | _ => true) e

theorem bcShapeB_ok {e : Expr} (h : bcShapeB e = true) : BcShape e := by
  refine ⟨fun i xs hs => ?_, fun x ty v b ps e' hs hr xs hc => ?_⟩
  · have := allSub_ok e h _ hs
    simpa using this
  · have := allSub_ok e h _ hs
    simp only [hr] at this
    have := allSub_ok b this _ hc
    simpa using this

/-- the hypotheses hold of a program with closures of two levels, recursion and a returned function -/
theorem exLam_bc : BcProgram exLam [exLamQ] where
  named := exLam_wellNamed
  shape := fun d hd => by
    simp only [exLam, List.mem_singleton] at hd
    subst hd
    exact bcShapeB_ok (by decide)
  exprs := fun e he => by
    rw [List.mem_singleton.1 he]
    exact ⟨exLamQ_good, bcShapeB_ok (by decide)⟩
  small := by
    intro ops h
    have h0 : (compileProgram exLam [exLamQ]).map (fun ops => decide (ops.length < 2 ^ 48 ∧
        (∀ ls ∈ link ops, ls.2.ctors.length ≤ 2 ^ 48))) = some true := by decide +kernel
    rw [h, Option.map_some, Option.some.injEq, decide_eq_true_eq] at h0
    exact ⟨h0.1, fun lops st hl => h0.2 _ hl⟩

example : ∃ N, ∀ m, N < m → bytecodeEval m exLam [exLamQ] = .ok [.comp 7 [.int 126, .fn]] := by
  have hv : seen (evalProgram 20 exLam [exLamQ]) = .ok [.comp 7 [.int 126, .fn]] := by rfl
  cases hr : evalProgram 20 exLam [exLamQ] with
  | ok vs =>
    rw [hr] at hv
    obtain ⟨N, hN⟩ := bytecode_same_values exLam_bc hr
    simp only [seen, Res.bind_ok, Res.ok.injEq] at hv
    exact ⟨N, hv ▸ hN⟩
  | trap msg => rw [hr] at hv; cases hv
  | panic => rw [hr] at hv; cases hv
  | timeout => rw [hr] at hv; cases hv

/-- `?a ?b` -/
def exTraps : Expr := .call (.trap "a" .int) [.trap "b" .int]

/-- A trap may be another one: the bytecode evaluates arguments before the function
(`compile.rs:128-158`), the tree-walking evaluator after it (`treewalk.rs:83-92`). -/
theorem traps_may_differ : BcProgram ⟨[], []⟩ [exTraps] ∧ (∀ n, evalProgramA n ⟨[], []⟩ [exTraps] ≠ .panic) ∧
    evalProgram 2 ⟨[], []⟩ [exTraps] = .trap "a" ∧ bytecodeEval 1 ⟨[], []⟩ [exTraps] = .trap "b" := by
  refine ⟨⟨wnB_ok (by decide), fun d h => (nomatch h), fun e he => ?_, ?_⟩, fun n => ?_, rfl, by rfl⟩
  · rw [List.mem_singleton.1 he]
    refine ⟨?_, bcShapeB_ok (by decide)⟩
    have : WellNamed ⟨[], [⟨8, none, .int, exTraps⟩]⟩ := wnB_ok (by decide)
    have h := wellNamed_iff.1 this
    simp only [defPairs, List.map_cons, lets] at h
    exact (good_let.1 h).1
  · intro ops h
    have h0 : (compileProgram ⟨[], []⟩ [exTraps]).map (fun ops => decide (ops.length < 2 ^ 48 ∧
        (∀ ls ∈ link ops, ls.2.ctors.length ≤ 2 ^ 48))) = some true := by decide +kernel
    rw [h, Option.map_some, Option.some.injEq, decide_eq_true_eq] at h0
    exact ⟨h0.1, fun lops st hl => h0.2 _ hl⟩
  · match n with
    | 0 => exact fun h => nomatch h
    | 1 => exact fun h => nomatch h
    | n + 2 => exact fun h => nomatch h

end Tic.Core
