import Verif.MergeMatch
import Verif.ReduceOK
/-
Helper: commuting conversions for `match`.
-/
namespace Tic.Core

variable {s : Mode} {k : Nat} {ρ ρ' : Env} {X : List Name}

/-- The rest of a match once the scrutinee is known. -/
theorem mtch_tail {bs bs' : List Branch} {v v' : Val} (hv : V s k v v') (hb : RelBr s k ρ bs ρ' bs') (n : Nat) :
    CE s (V s) k (CRes.bind (free v.intoComp) fun cf => runBranchC (evalC n) ρ bs cf.1 cf.2)
      (fun m => v'.intoComp.bind fun cf => runBranch (eval m) ρ' bs' cf.1 cf.2) := by
  refine CE.bind (P := fun k a b => a.1 = b.1 ∧ Vs s k a.2 b.2) (R := fun _ => v'.intoComp) (S := fun cf m => runBranch (eval m) ρ' bs' cf.1 cf.2)
    (mono_const _) (fun a => mono_branch _ _ _ _) ?_ fun i' hi' x x' hx => ?_
  · cases hv with
    | comp t h => exact CE.ok ⟨rfl, h⟩
    | fn a b c => cases v <;> simp [Val.isFn] at a <;> cases v' <;> simp [Val.isFn] at b <;> exact CE.panic
    | _ => exact CE.panic
  obtain ⟨h1, h2⟩ := hx
  rw [h1]
  exact hb i' (by omega) x'.1 x.2 x'.2 h2 n

theorem mono_mtch_tail (v : Val) (ρ : Env) (bs : List Branch) :
    Mono (fun m => v.intoComp.bind fun cf => runBranch (eval m) ρ bs cf.1 cf.2) :=
  mono_bind (mono_const _) fun _ => mono_branch _ _ _ _

/-- Branches are related to themselves. -/
theorem fundBr {bs : List Branch} (h : ∀ x, FreeB x bs → LookRel s k ρ ρ' x) : RelBr s k ρ bs ρ' bs := by
  refine relBr_all2 (All2.self fun b hb => ⟨rfl, rfl, fun j hj fs fs' hf hl => fund _ fun x hx => ?_⟩)
  exact LookRel.bindAll hf hl fun hn => (h x (FreeB_iff.2 ⟨b, hb, hn, hx⟩)).mono hj

theorem RelBr.mono {bs bs' : List Branch} {j : Nat} (hj : j ≤ k) (h : RelBr s k ρ bs ρ' bs') : RelBr s j ρ bs ρ' bs' :=
  fun i hi => h i (by omega)

/-- Branches related by constructor. -/
theorem relBr_find (hs : s.panic = false) {bs bs' : List Branch}
    (h : ∀ c b, findBranch c bs = some b → ∃ b', findBranch c bs' = some b' ∧ b.binds.length = b'.binds.length ∧
      ∀ j, j ≤ k → ∀ fs fs', Vs s j fs fs' → b.binds.length = fs.length →
        RelD s j (bindAll ρ b.binds fs) b.body (bindAll ρ' b'.binds fs') b'.body) : RelBr s k ρ bs ρ' bs' := by
  intro j hj t fs fs' hfs n
  unfold runBranchC runBranch
  cases hb : findBranch t bs with
  | none => exact CE.panicLe hs
  | some b =>
    obtain ⟨b', h1, h2, h3⟩ := h t b hb
    simp only [h1]
    rw [← h2, ← hfs.length]
    by_cases hl : b.binds.length = fs.length
    · simp only [hl, if_true]
      exact h3 j hj fs fs' hfs hl j (Nat.le_refl _) n
    · simp only [hl, if_false]
      exact CE.panicLe hs

/-- `match (let x = v; e) bs` against `let x = v; match e bs`. -/
theorem rel_mtch_let {x : Name} {v v' e e' : Expr} {bs bs' : List Branch} (hv : RelD s k ρ v ρ' v')
    (he : ∀ j, j ≤ k → ∀ w w', V s j w w' → RelD s j ((x, w) :: ρ) e ((x, w') :: ρ') e')
    (hb : ∀ w', RelBr s k ρ bs ((x, w') :: ρ') bs') :
    RelD s k ρ (.mtch (.let_ x v e) bs) ρ' (.let_ x v' (.mtch e' bs')) := by
  intro j hj n
  rcases n with _ | _ | n
  · exact CE.timeout
  · simp only [evalC, CRes.bind_free_timeout]; exact CE.timeout
  · refine CE.succ ?_
    rw [evalC, evalC, CRes.bind_assoc]
    refine CE.bind (S := fun w m => eval m ((x, w) :: ρ') (.mtch e' bs')) (mono_eval _ _) (fun _ => mono_eval _ _) (hv j hj n) fun i hi w w' hw => ?_
    refine CE.succ ?_
    refine CE.bind (S := fun v m => v.intoComp.bind fun cf => runBranch (eval m) ((x, w') :: ρ') bs' cf.1 cf.2)
      (mono_eval _ _) (fun v => mono_mtch_tail _ _ _) (he i (by omega) w w' hw i (Nat.le_refl _) n) fun i' hi' v v' hv => ?_
    exact mtch_tail hv ((hb w').mono (by omega)) _

/-- `match (letrec f = v; e) bs` against `letrec f = v; match e bs`. -/
theorem rel_mtch_letrec {f : Name} {t : Ty} {v e e' : Expr} {bs bs' : List Branch} {ps : List Name} {b : Expr} (hr : recLam v = some (ps, b))
    (he : RelD s k ((f, .rclo ρ f ps b) :: ρ) e ((f, .rclo ρ' f ps b) :: ρ') e')
    (hb : ∀ w', RelBr s k ρ bs ((f, w') :: ρ') bs') :
    RelD s k ρ (.mtch (.letrec f t v e) bs) ρ' (.letrec f t v (.mtch e' bs')) := by
  intro j hj n
  rcases n with _ | _ | n
  · exact CE.timeout
  · simp only [evalC, CRes.bind_free_timeout]; exact CE.timeout
  · refine CE.succ (CE.succ ?_)
    rw [evalC, evalC]
    simp only [hr, eval_letrec, eval_mtch]
    refine CE.bind (S := fun v m => v.intoComp.bind fun cf => runBranch (eval m) ((f, .rclo ρ' f ps b) :: ρ') bs' cf.1 cf.2)
      (mono_eval _ _) (fun v => mono_mtch_tail _ _ _) (he j hj n) fun i' hi' v v' hv => ?_
    exact mtch_tail hv ((hb _).mono (by omega)) _

theorem rel_mtch_pi {x : TyVar} {e e' : Expr} {bs bs' : List Branch} (he : RelD s k ρ e ρ' e') (hb : RelBr s k ρ bs ρ' bs') :
    RelD s k ρ (.mtch (.pi x e) bs) ρ' (.pi x (.mtch e' bs')) := by
  intro j hj n
  rcases n with _ | _ | n
  · exact CE.timeout
  · simp only [evalC, CRes.bind_free_timeout]; exact CE.timeout
  · refine CE.succ (CE.succ ?_)
    rw [evalC, evalC]
    simp only [eval_pi, eval_mtch]
    refine CE.bind (S := fun v m => v.intoComp.bind fun cf => runBranch (eval m) ρ' bs' cf.1 cf.2)
      (mono_eval _ _) (fun v => mono_mtch_tail _ _ _) (he j hj n) fun i' hi' v v' hv => ?_
    exact mtch_tail hv (hb.mono (by omega)) _

theorem rel_mtch_piApp {x : Ty} {e e' : Expr} {bs bs' : List Branch} (he : RelD s k ρ e ρ' e') (hb : RelBr s k ρ bs ρ' bs') :
    RelD s k ρ (.mtch (.piApp e x) bs) ρ' (.piApp (.mtch e' bs') x) := by
  intro j hj n
  rcases n with _ | _ | n
  · exact CE.timeout
  · simp only [evalC, CRes.bind_free_timeout]; exact CE.timeout
  · refine CE.succ (CE.succ ?_)
    rw [evalC, evalC]
    simp only [eval_piApp, eval_mtch]
    refine CE.bind (S := fun v m => v.intoComp.bind fun cf => runBranch (eval m) ρ' bs' cf.1 cf.2)
      (mono_eval _ _) (fun v => mono_mtch_tail _ _ _) (he j hj n) fun i' hi' v v' hv => ?_
    exact mtch_tail hv (hb.mono (by omega)) _

/-- `match C(es) { ... C(ps) -> b ... }` against `(\ps -> b)(es)`. -/
theorem rel_mtch_con (hs : s.panic = false) {c : Name} {ts : List Ty} {es es' : List Expr} {bs : List Branch} {b : Branch} {ps : List (Name × Ty)} {b' : Expr}
    (hes : All2 (fun e e' => RelD s k ρ e ρ' e') es es') (hf : findBranch c bs = some b) (hps : ps.map (·.1) = b.binds)
    (hb : ∀ j, j ≤ k → ∀ vs vs', Vs s j vs vs' → b.binds.length = vs.length →
      RelD s j (bindAll ρ b.binds vs) b.body (bindAll ρ' b.binds vs') b') :
    RelD s k ρ (.mtch (.con c ts es) bs) ρ' (.call (.lam ps b') es') := by
  intro j hj n
  rcases n with _ | _ | n
  · exact CE.timeout
  · simp only [evalC, CRes.bind_free_timeout]; exact CE.timeout
  · refine CE.succ (CE.succ ?_)
    rw [evalC, evalC, CRes.bind_assoc]
    simp only [eval_call, eval_lam, Res.bind_ok, Val.isFn, if_true]
    refine CE.bind (S := fun vs m => applyFn (eval (m + 1)) _ vs) (mono_shift (mono_list _ _)) (fun _ => mono_shift (mono_apply _ _))
      (CE.shift (mono_list _ _) (relL hes j hj _)) fun i' hi' vs vs' hvs => ?_
    by_cases hm : vs.length ≤ maxFields
    · simp only [hm, if_true, CRes.bind_free_ok, Val.intoComp, runBranchC, hf, applyFn, hps]
      rw [← hvs.length]
      by_cases hl : b.binds.length = vs.length
      · simp only [hl, if_true]
        exact CE.shift (mono_eval _ _) (hb i' (by omega) vs vs' hvs hl i' (Nat.le_refl _) _)
      · simp only [hl, if_false]
        exact CE.panic
    · simp only [hm, if_false, CRes.bind_free_panic]
      exact CE.panicLe hs

theorem findBranch_map {g : Expr → Expr} (c : Name) : ∀ (bs : List Branch),
    findBranch c (bs.map fun b => Branch.mk b.ctor b.binds (g b.body)) = (findBranch c bs).map fun b => Branch.mk b.ctor b.binds (g b.body)
  | [] => rfl
  | .mk c' ns e :: bs => by
    rw [List.map_cons, findBranch, findBranch, findBranch_map c bs]
    by_cases h : c' = c
    · rw [if_pos (show (Branch.mk (Branch.mk c' ns e).ctor (Branch.mk c' ns e).binds (g (Branch.mk c' ns e).body)).ctor = c from h),
        if_pos (show (Branch.mk c' ns e).ctor = c from h)]; rfl
    · rw [if_neg (show ¬ (Branch.mk (Branch.mk c' ns e).ctor (Branch.mk c' ns e).binds (g (Branch.mk c' ns e).body)).ctor = c from h),
        if_neg (show ¬ (Branch.mk c' ns e).ctor = c from h)]

/-- `match (match d inner) outer` against `match d` with the outer match in every branch. -/
theorem rel_mtch_mtch (hs : s.panic = false) {d d' : Expr} {inner outer : List Branch} (hd : RelD s k ρ d ρ' d')
    (hi : ∀ b ∈ inner, ∀ j, j ≤ k → ∀ fs fs', Vs s j fs fs' → b.binds.length = fs.length →
        RelD s j (bindAll ρ b.binds fs) b.body (bindAll ρ' b.binds fs') b.body ∧
        RelBr s j ρ outer (bindAll ρ' b.binds fs') outer) :
    RelD s k ρ (.mtch (.mtch d inner) outer) ρ' (.mtch d' (inner.map fun b => Branch.mk b.ctor b.binds (.mtch b.body outer))) := by
  intro j hj n
  rcases n with _ | _ | n
  · exact CE.timeout
  · simp only [evalC, CRes.bind_free_timeout]; exact CE.timeout
  · refine CE.succ ?_
    rw [evalC, evalC, CRes.bind_assoc]
    simp only [eval_mtch]
    refine CE.bind (S := fun v m => v.intoComp.bind fun cf => runBranch (eval m) ρ' (inner.map fun b => Branch.mk b.ctor b.binds (.mtch b.body outer)) cf.1 cf.2)
      (mono_eval _ _) (fun v => mono_mtch_tail _ _ _) (hd j hj n) fun i hi1 v v' hv => ?_
    rw [CRes.bind_assoc]
    refine CE.bind (P := fun k (a b : Name × List Val) => a.1 = b.1 ∧ Vs s k a.2 b.2) (R := fun _ => v'.intoComp) (S := fun cf m => runBranch (eval m) ρ' (inner.map fun b => Branch.mk b.ctor b.binds (.mtch b.body outer)) cf.1 cf.2)
      (mono_const _) (fun a => mono_branch _ _ _ _) ?_ fun i' hi' x x' hx => ?_
    · cases hv with
      | comp t h => exact CE.ok ⟨rfl, h⟩
      | fn a b c => cases v <;> simp [Val.isFn] at a <;> cases v' <;> simp [Val.isFn] at b <;> exact CE.panic
      | _ => exact CE.panic
    obtain ⟨h1, h2⟩ := hx
    unfold runBranchC runBranch
    have hfm := findBranch_map (g := fun e => Expr.mtch e outer) x'.1 inner
    rw [hfm, ← h1]
    cases hb : findBranch x.1 inner with
    | none => exact CE.panicLe hs
    | some b =>
      have hmem : b ∈ inner := by
        clear hi hi1 h2 hfm
        induction inner with
        | nil => simp [findBranch] at hb
        | cons a l ih =>
          simp only [findBranch] at hb
          split at hb
          · cases hb; simp
          · exact List.mem_cons_of_mem _ (ih hb)
      simp only [Option.map_some]
      have e1 : ∀ c ns e, (Branch.mk c ns e).binds = ns := fun _ _ _ => rfl
      have e2 : ∀ c ns e, (Branch.mk c ns e).body = e := fun _ _ _ => rfl
      simp only [e1, e2]
      rw [← h2.length]
      by_cases hl : b.binds.length = x.2.length
      · simp only [hl, if_true]
        obtain ⟨r1, r2⟩ := hi b hmem i' (by omega) x.2 x'.2 h2 hl
        refine CE.succ ?_
        simp only [eval_mtch]
        refine CE.bind (S := fun v m => v.intoComp.bind fun cf => runBranch (eval m) (bindAll ρ' b.binds x'.2) outer cf.1 cf.2)
          (mono_eval _ _) (fun v => mono_mtch_tail _ _ _) (r1 i' (Nat.le_refl _) n) fun i2 hi2 u u' hu => ?_
        exact mtch_tail hu (r2.mono (by omega)) _
      · simp only [hl, if_false]
        exact CE.panicLe hs

end Tic.Core
