import Verif.GenTotal
/-
The code generated for a well-typed expression runs to a value of its type.
-/
namespace Tic.Front
open Tic.Unify (Symbol IrTy)
open Tic.Core

/-! ### Well-formed types -/

mutual
theorem wfTy_mono {Δ Δ' : List TypeDecl} {vs vs'} : ∀ {t}, (∀ s ∈ tySyms t, (s ∈ vs → s ∈ vs') ∧ arity Δ' s = arity Δ s ∧ ((declOf Δ s).isSome → (declOf Δ' s).isSome)) →
    WfTy Δ vs t → WfTy Δ' vs' t
  | .named s args, hs, h => by
    simp only [WfTy] at h ⊢
    obtain ⟨h1, h2, h3⟩ := h
    have hs' := hs s (by simp [tySyms])
    exact ⟨h1.imp hs'.1 hs'.2.2, by rw [h2, hs'.2.1], wfTys_mono (fun x hx => hs x (by simp [tySyms, hx])) h3⟩
  | .fn a b, hs, h => by
    simp only [WfTy] at h ⊢
    exact ⟨wfTy_mono (fun x hx => hs x (by simp [tySyms, hx])) h.1, wfTy_mono (fun x hx => hs x (by simp [tySyms, hx])) h.2⟩
  | .folded a b, hs, h => by
    simp only [WfTy] at h ⊢
    exact ⟨wfTy_mono (fun x hx => hs x (by simp [tySyms, hx])) h.1, wfTy_mono (fun x hx => hs x (by simp [tySyms, hx])) h.2⟩
  | .int, _, _ | .bool, _, _ | .str, _, _ => by simp [WfTy]
  | .error, _, h | .infer, _, h => by simp [WfTy] at h
theorem wfTys_mono {Δ Δ' : List TypeDecl} {vs vs'} : ∀ {ts}, (∀ s ∈ tysSyms ts, (s ∈ vs → s ∈ vs') ∧ arity Δ' s = arity Δ s ∧ ((declOf Δ s).isSome → (declOf Δ' s).isSome)) →
    WfTys Δ vs ts → WfTys Δ' vs' ts
  | [], _, _ => by simp [WfTys]
  | t :: ts, hs, h => by
    simp only [WfTys] at h ⊢
    exact ⟨wfTy_mono (fun x hx => hs x (by simp [tysSyms, hx])) h.1, wfTys_mono (fun x hx => hs x (by simp [tysSyms, hx])) h.2⟩
end

theorem wfTy_weaken {Δ : List TypeDecl} {vs vs' t} (hs : ∀ s ∈ vs, s ∈ vs') (h : WfTy Δ vs t) : WfTy Δ vs' t :=
  wfTy_mono (fun s _ => ⟨hs s, rfl, fun h => h⟩) h

theorem findTy_zip_or {vs : List Symbol} {s} : ∀ {vars : List Symbol} {inst : List IrTy}, vars.length = inst.length →
    (∃ u, findTy (vars.zip inst) s = some u ∧ u ∈ inst) ∨ (findTy (vars.zip inst) s = none ∧ s ∉ vars)
  | [], [], _ => .inr ⟨rfl, by simp⟩
  | v :: vars, t :: inst, h => by
    simp only [List.zip_cons_cons, findTy]
    split
    · exact .inl ⟨t, rfl, by simp⟩
    · rename_i hne
      rcases findTy_zip_or (vs := vs) (s := s) (vars := vars) (inst := inst) (by simpa using h) with ⟨u, h1, h2⟩ | ⟨h1, h2⟩
      · exact .inl ⟨u, h1, by simp [h2]⟩
      · exact .inr ⟨h1, by simp [h2, Ne.symm hne]⟩

theorem wfTys_mem {Δ : List TypeDecl} {vs} : ∀ {ts t}, WfTys Δ vs ts → t ∈ ts → WfTy Δ vs t
  | t' :: ts, t, h, ht => by
    simp only [WfTys] at h
    rcases List.mem_cons.mp ht with rfl | ht
    · exact h.1
    · exact wfTys_mem h.2 ht

theorem substTys_length {σ} : ∀ ts, (substTys σ ts).length = ts.length
  | [] => by simp [substTys]
  | t :: ts => by simp [substTys, substTys_length ts]

mutual
theorem wfTy_subst {Δ : List TypeDecl} {vs vars inst} (hl : vars.length = inst.length) (hi : WfTys Δ vs inst) :
    ∀ {t}, WfTy Δ vars t → WfTy Δ vs (substTy (vars.zip inst) t)
  | .named s args, h => by
    simp only [WfTy] at h
    obtain ⟨h1, h2, h3⟩ := h
    simp only [substTy]
    rcases findTy_zip_or (vs := vs) (s := s) hl with ⟨u, h4, h5⟩ | ⟨h4, h5⟩
    · rw [h4]
      exact wfTys_mem hi h5
    · rw [h4]
      simp only [WfTy]
      exact ⟨.inr (h1.resolve_left h5), by rw [substTys_length, h2], wfTys_subst hl hi h3⟩
  | .fn a b, h => by
    simp only [WfTy] at h
    simp only [substTy, WfTy]
    exact ⟨wfTy_subst hl hi h.1, wfTy_subst hl hi h.2⟩
  | .folded a b, h => by
    simp only [WfTy] at h
    simp only [substTy, WfTy]
    exact ⟨wfTy_subst hl hi h.1, wfTy_subst hl hi h.2⟩
  | .int, _ | .bool, _ | .str, _ => by simp [substTy, WfTy]
  | .error, h | .infer, h => by simp [WfTy] at h
theorem wfTys_subst {Δ : List TypeDecl} {vs vars inst} (hl : vars.length = inst.length) (hi : WfTys Δ vs inst) :
    ∀ {ts}, WfTys Δ vars ts → WfTys Δ vs (substTys (vars.zip inst) ts)
  | [], _ => by simp [substTys, WfTys]
  | t :: ts, h => by
    simp only [WfTys] at h
    simp only [substTys, WfTys]
    exact ⟨wfTy_subst hl hi h.1, wfTys_subst hl hi h.2⟩
end

/-! ### Environments -/

/-- What stays fixed: the declarations, and injective constructor names. -/
structure Fix (M : Sem) (Δ : List TypeDecl) : Prop where
  decls : DeclsOK Δ
  vars : ∀ d ∈ Δ, ∀ v ∈ d.vars, declOf Δ v = none
  wf : ∀ s d, declOf Δ s = some d → ∀ c ∈ d.ctors, ∀ t, Field.ty t ∈ c.2 → WfTy Δ d.vars t
  reg : ∀ c c' n, M.reg c = some n → M.reg c' = some n → c = c'
  fold : ∀ c c' n, M.fold c = some n → M.fold c' = some n → c = c'

/-- The constructor names are those of the generator. -/
def Agrees (M : Sem) (g : Gen) : Prop := ∀ c k, g.ctors c = some k → M.reg c = some k.regular ∧ M.fold c = some k.folded

theorem Agrees.ext {M bs g g'} (h : Agrees M g) (he : Ext bs g g') : Agrees M g' := by
  intro c k hk
  rw [he.ctors] at hk
  exact h c k hk

/-- The values of the names in scope have their types. -/
structure ValOK (M : Sem) (Δ : List TypeDecl) (vs : List Symbol) (η : Symbol → VSet) (g : Gen) (ρ : Env) (s : Symbol) (sch : Scheme) : Prop where
  wf : WfTy Δ (sch.vars ++ vs) sch.ty
  plain : sch.vars = [] ∨ Plain sch.ty
  vars : ∀ x ∈ sch.vars, declOf Δ x = none
  val : ∃ n v, g.symNames s = some n ∧ n < g.names ∧ lookup n ρ = .ok v ∧
    ∀ Ss, Ss.length = sch.vars.length → interp M (tyEnv M Δ) (bindVars sch.vars Ss η) sch.ty v

/-- ... for a context. -/
def ValsOK (M : Sem) (Δ : List TypeDecl) (vs : List Symbol) (η : Symbol → VSet) (Γ : Ctx) (g : Gen) (ρ : Env) : Prop :=
  ∀ s sch, Γ.find s = some sch → ValOK M Δ vs η g ρ s sch

theorem ValsOK.ext {M : Sem} {Δ vs η Γ g g' ρ bs} (h : ValsOK M Δ vs η Γ g ρ) (he : Ext bs g g') (hb : ∀ b ∈ bs, Γ.find b = none) :
    ValsOK M Δ vs η Γ g' ρ := by
  intro s sch hs
  obtain ⟨h1, h2, h3, n, v, h4, h5, h6, h7⟩ := h s sch hs
  refine ⟨h1, h2, h3, n, v, ?_, Nat.lt_of_lt_of_le h5 he.names, h6, h7⟩
  rw [he.sym s (fun hbs => by rw [hb s hbs] at hs; cases hs)]
  exact h4

theorem ValsOK.junk {M : Sem} {Δ vs η Γ g ρ} (h : ValsOK M Δ vs η Γ g ρ) {n x} (hn : g.names ≤ n) : ValsOK M Δ vs η Γ g ((n, x) :: ρ) := by
  intro s sch hs
  obtain ⟨h1, h2, h3, m, v, h4, h5, h6, h7⟩ := h s sch hs
  refine ⟨h1, h2, h3, m, v, h4, h5, ?_, h7⟩
  have hne : n ≠ m := fun e => by subst e; exact absurd (Nat.lt_of_lt_of_le h5 hn) (Nat.lt_irrefl _)
  simp only [lookup, if_neg hne]
  exact h6

theorem ValsOK.add {M : Sem} {Δ vs η Γ g ρ} (h : ValsOK M Δ vs η Γ g ρ) {s sch v} (h1 : WfTy Δ (sch.vars ++ vs) sch.ty)
    (h2 : sch.vars = [] ∨ Plain sch.ty) (h3 : ∀ x ∈ sch.vars, declOf Δ x = none)
    (hv : ∀ Ss, Ss.length = sch.vars.length → interp M (tyEnv M Δ) (bindVars sch.vars Ss η) sch.ty v) :
    ValsOK M Δ vs η ((s, sch) :: Γ) (g.genName s).1 ((g.names, v) :: ρ) := by
  intro x sc hx
  simp only [Ctx.find] at hx
  split at hx
  · rename_i hsx
    cases hx
    subst hsx
    exact ⟨h1, h2, h3, g.names, v, by simp [Gen.genName], Nat.lt_succ_self _, by simp [lookup], hv⟩
  · rename_i hne
    obtain ⟨h1, h2, h3, m, v, h4, h5, h6, h7⟩ := h.junk (x := v) (Nat.le_refl _) x sc hx
    exact ⟨h1, h2, h3, m, v, by simp only [Gen.genName]; rw [setAt_ne (Ne.symm hne)]; exact h4, Nat.lt_succ_of_lt h5, h6, h7⟩

theorem ValsOK.one {M : Sem} {Δ vs η Γ g ρ} (h : ValsOK M Δ vs η Γ g ρ) {s t v} (h1 : WfTy Δ vs t)
    (hv : interp M (tyEnv M Δ) η t v) : ValsOK M Δ vs η ((s, mono t) :: Γ) (g.genName s).1 ((g.names, v) :: ρ) := by
  refine h.add (by simpa [Front.mono] using h1) (.inl rfl) (by simp [Front.mono]) ?_
  intro Ss hl
  simpa [Front.mono, bindVars] using hv

theorem ValsOK.tyvars {M : Sem} {Δ vs η Γ g ρ} (h : ValsOK M Δ vs η Γ g ρ) {vars : List Symbol} (hv : ∀ x ∈ vars, x ∉ vs) (Ts : List VSet) :
    ValsOK M Δ (vars ++ vs) (bindVars vars Ts η) Γ g ρ := by
  intro s sch hs
  obtain ⟨h1, h2, h3, m, v, h4, h5, h6, h7⟩ := h s sch hs
  refine ⟨wfTy_weaken (fun x hx => by simp only [List.mem_append] at hx ⊢; exact hx.imp id .inr) h1, h2, h3, m, v, h4, h5, h6, fun Ss hl => ?_⟩
  have hc : interp M (tyEnv M Δ) (bindVars sch.vars Ss η) sch.ty = interp M (tyEnv M Δ) (bindVars sch.vars Ss (bindVars vars Ts η)) sch.ty := by
    refine interp_congr sch.ty fun x hx => ⟨rfl, fun hd => bindVars_congr (fun hn => ?_) hl⟩
    have := (wfTy_syms h1 x hx).resolve_right (by rw [tyEnv_none.mp hd]; simp)
    rw [bindVars_none fun hx' => hv x hx' ((List.mem_append.mp this).resolve_left hn)]
  rw [← hc]
  exact h7 Ss hl

/-! ### Bindings -/

theorem lookup_bindAll_out {x : Name} : ∀ {ns : List Name} {vs : List Val} {ρ : Env}, x ∉ ns → lookup x (bindAll ρ ns vs) = lookup x ρ
  | [], vs, ρ, _ => by cases vs <;> rfl
  | n :: ns, [], ρ, _ => rfl
  | n :: ns, v :: vs, ρ, h => by
    simp only [List.mem_cons, not_or] at h
    simp only [bindAll]
    rw [lookup_bindAll_out h.2]
    simp only [lookup]
    rw [if_neg (Ne.symm h.1)]

theorem lookup_bindAll_in {x : Name} {v : Val} : ∀ {ns : List Name} {vs : List Val} {ρ : Env} {i : Nat}, ns.Nodup → ns[i]? = some x → vs[i]? = some v →
    lookup x (bindAll ρ ns vs) = .ok v
  | [], vs, ρ, i, _, h, _ => by simp at h
  | n :: ns, [], ρ, i, _, _, h => by simp at h
  | n :: ns, w :: vs, ρ, 0, hn, h, h' => by
    simp only [List.getElem?_cons_zero, Option.some.injEq] at h h'
    subst h; subst h'
    simp only [bindAll]
    rw [lookup_bindAll_out (List.nodup_cons.mp hn).1]
    simp [lookup]
  | n :: ns, w :: vs, ρ, i + 1, hn, h, h' => by
    simp only [List.getElem?_cons_succ] at h h'
    simp only [bindAll]
    exact lookup_bindAll_in (List.nodup_cons.mp hn).2 h h'

theorem freshes_range : ∀ (n : Nat) (g : Gen), (g.freshes n).2 = List.range' g.names n
  | 0, g => rfl
  | n + 1, g => by
    simp only [Gen.freshes, List.range'_succ, Gen.fresh]
    rw [freshes_range n]

theorem genNames_length : ∀ (ss : List Symbol) (g : Gen), (g.genNames ss).2.length = ss.length
  | [], g => rfl
  | s :: ss, g => by simp [Gen.genNames, genNames_length ss]

/-- Pattern variables. -/
theorem ValsOK.addAll {M : Sem} {Δ vs η} : ∀ {pvs : List (Symbol × IrTy)} {fs : List Val} {Γ g ρ}, ValsOK M Δ vs η Γ g ρ → fs.length = pvs.length →
    (∀ (i : Nat) p v, pvs[i]? = some p → fs[i]? = some v → WfTy Δ vs p.2 ∧ interp M (tyEnv M Δ) η p.2 v) →
    ValsOK M Δ vs η ((pvs.map fun p => (p.1, mono p.2)).reverse ++ Γ) (g.genNames (pvs.map (·.1))).1 (bindAll ρ (g.genNames (pvs.map (·.1))).2 fs)
  | [], fs, Γ, g, ρ, h, hl, hp => by
    have : fs = [] := List.eq_nil_of_length_eq_zero hl
    subst this
    simpa [Gen.genNames, bindAll] using h
  | p :: pvs, [], Γ, g, ρ, h, hl, hp => by simp at hl
  | p :: pvs, v :: fs, Γ, g, ρ, h, hl, hp => by
    have h0 := hp 0 p v rfl rfl
    have := ValsOK.addAll (pvs := pvs) (fs := fs) (h.one (s := p.1) h0.1 h0.2) (by simpa using hl) (fun i q w hq hw => hp (i + 1) q w (by simpa using hq) (by simpa using hw))
    simpa [Gen.genNames, Gen.genName, bindAll, List.append_assoc] using this

/-! ### Pieces of evaluation -/

theorem runs_pis {H S ρ e} : ∀ {vs : List TyVar}, RunsTo H (fun n => eval n ρ e) S → RunsTo H (fun n => eval n ρ (pis vs e)) S
  | [], h => h
  | v :: vs, h => by
    refine RunsTo.step ?_
    simp only [pis, List.foldr_cons, eval_pi]
    exact runs_pis (vs := vs) h

theorem runs_piApps {H S ρ} : ∀ {ts : List Ty} {e}, RunsTo H (fun n => eval n ρ e) S → RunsTo H (fun n => eval n ρ (piApps e ts)) S
  | [], _, h => h
  | t :: ts, e, h => by
    simp only [piApps]
    refine runs_piApps (ts := ts) (RunsTo.step ?_)
    simp only [eval_piApp]
    exact h

theorem runs_list {H ρ} : ∀ {es : List Expr} {Ss : List VSet}, es.length = Ss.length →
    (∀ (i : Nat) e S, es[i]? = some e → Ss[i]? = some S → RunsTo H (fun n => eval n ρ e) S) →
    RunsTo H (fun n => evalList (eval n ρ) es) (fun ws => ws.length = Ss.length ∧ ∀ (i : Nat) S w, Ss[i]? = some S → ws[i]? = some w → S w)
  | [], [], _, _ => RunsTo.ok (v := []) rfl ⟨rfl, by simp⟩
  | e :: es, S :: Ss, hl, h => by
    simp only [evalList]
    refine RunsTo.bind (k := fun v n => (evalList (eval n ρ) es).bind fun vs => .ok (v :: vs)) (monoR_eval ρ e) (fun v => (monoR_evalList ρ es).bind fun _ => monoR_const _)
      (h 0 e S rfl rfl) fun v hv => ?_
    refine RunsTo.bind (k := fun vs n => .ok (v :: vs)) (monoR_evalList ρ es) (fun v => monoR_const _) (runs_list (es := es) (Ss := Ss) (by simpa using hl)
      (fun i e S h1 h2 => h (i + 1) e S (by simpa using h1) (by simpa using h2))) fun ws hws => RunsTo.ok rfl ⟨by simp [hws.1], ?_⟩
    intro i S' w h1 h2
    cases i with
    | zero =>
      simp only [List.getElem?_cons_zero, Option.some.injEq] at h1 h2
      subst h1; subst h2
      exact hv
    | succ i =>
      simp only [List.getElem?_cons_succ] at h1 h2
      exact hws.2 i S' w h1 h2

theorem runs_call {H : String → Prop} {A B : VSet} {ρ f a} (hf : RunsTo H (fun n => eval n ρ f) (Arrow H A B)) (ha : RunsTo H (fun n => eval n ρ a) A) :
    RunsTo H (fun n => eval n ρ (.call f [a])) B := by
  refine RunsTo.step ?_
  simp only [eval_call]
  refine RunsTo.bind (k := fun fv n => if fv.isFn then (evalList (eval n ρ) [a]).bind fun vs => applyFn (eval n) fv vs else .panic)
    (monoR_eval ρ f) (fun fv => ?_) hf fun fv hfv => ?_
  · split
    · exact (monoR_evalList ρ [a]).bind fun vs => monoR_applyFn fv vs
    · exact monoR_const _
  · simp only [hfv.1, if_true]
    refine RunsTo.bind (k := fun vs n => applyFn (eval n) fv vs) (monoR_evalList ρ [a]) (fun vs => monoR_applyFn fv vs)
      (runs_list (es := [a]) (Ss := [A]) rfl ?_) fun ws hws => ?_
    · intro i e S h1 h2
      cases i with
      | zero =>
        simp only [List.getElem?_cons_zero, Option.some.injEq] at h1 h2
        subst h1; subst h2
        exact ha
      | succ i => simp at h1
    · match ws, hws with
      | [w], hws => exact hfv.2 w (hws.2 0 A w rfl rfl)
      | [], hws => simp at hws
      | _ :: _ :: _, hws => simp at hws

theorem arrow_clo {H : String → Prop} {A B : VSet} {ρ p body} (h : ∀ a, A a → RunsTo H (fun n => eval n ((p, a) :: ρ) body) B) :
    Arrow H A B (.clo ρ [p] body) := by
  refine ⟨rfl, fun a ha => ?_⟩
  simpa [applyFn, bindAll] using h a ha

theorem runs_ite {H : String → Prop} {B : VSet} {ρ c t e} (hc : RunsTo H (fun n => eval n ρ c) fun v => ∃ b, v = .bool b)
    (ht : RunsTo H (fun n => eval n ρ t) B) (he : RunsTo H (fun n => eval n ρ e) B) : RunsTo H (fun n => eval n ρ (.ite c t e)) B := by
  refine RunsTo.step ?_
  simp only [eval_ite]
  refine RunsTo.bind (k := fun v n => v.intoBool.bind fun b => if b then eval n ρ t else eval n ρ e) (monoR_eval ρ c) (fun v => ?_) hc ?_
  · refine (monoR_const v.intoBool).bind (k := fun b n => if b then eval n ρ t else eval n ρ e) fun b => ?_
    cases b
    · exact monoR_eval ρ e
    · exact monoR_eval ρ t
  · rintro v ⟨b, rfl⟩
    cases b
    · simpa [Val.intoBool] using he
    · simpa [Val.intoBool] using ht

theorem runs_op {H : String → Prop} {ρ a o b} {T : VSet} (ha : RunsTo H (fun n => eval n ρ a) fun v => ∃ x, v = .int x)
    (hb : RunsTo H (fun n => eval n ρ b) fun v => ∃ x, v = .int x) (hT : ∀ x y, T (evalOp o x y)) : RunsTo H (fun n => eval n ρ (.op a o b)) T := by
  refine RunsTo.step ?_
  simp only [eval_op]
  refine RunsTo.bind (k := fun v n => v.intoInt.bind fun a => (eval n ρ b).bind fun v => v.intoInt.bind fun b => .ok (evalOp o a b))
    (monoR_eval ρ a) (fun v => (monoR_const _).bind fun x => (monoR_eval ρ b).bind fun _ => monoR_const _) ha ?_
  rintro v ⟨x, rfl⟩
  simp only [Val.intoInt, Res.bind_ok]
  refine RunsTo.bind (k := fun v n => v.intoInt.bind fun b => .ok (evalOp o x b)) (monoR_eval ρ b) (fun v => monoR_const _) hb ?_
  rintro v ⟨y, rfl⟩
  exact RunsTo.ok rfl (hT x y)

theorem runs_mtch {H : String → Prop} {ρ d bs} {S T : VSet} (hd : RunsTo H (fun n => eval n ρ d) S)
    (h : ∀ v, S v → ∃ c fs, v = .comp c fs ∧ RunsTo H (fun n => runBranch (eval n) ρ bs c fs) T) : RunsTo H (fun n => eval n ρ (.mtch d bs)) T := by
  refine RunsTo.step ?_
  simp only [eval_mtch]
  refine RunsTo.bind (k := fun v n => v.intoComp.bind fun (cf : Name × List Val) => runBranch (eval n) ρ bs cf.1 cf.2) (monoR_eval ρ d)
    (fun v => (monoR_const v.intoComp).bind fun cf => monoR_runBranch ρ bs cf.1 cf.2) hd fun v hv => ?_
  obtain ⟨c, fs, rfl, h'⟩ := h v hv
  simpa [Val.intoComp] using h'

theorem runs_let {H : String → Prop} {ρ x v e} {S T : VSet} (hv : RunsTo H (fun n => eval n ρ v) S)
    (h : ∀ w, S w → RunsTo H (fun n => eval n ((x, w) :: ρ) e) T) : RunsTo H (fun n => eval n ρ (.let_ x v e)) T := by
  refine RunsTo.step ?_
  simp only [eval_let]
  exact RunsTo.bind (k := fun w n => eval n ((x, w) :: ρ) e) (monoR_eval ρ v) (fun w => monoR_eval _ e) hv h

theorem runs_con {H : String → Prop} {ρ c tys es} {T : VSet} {Ss : List VSet} (hl : es.length = Ss.length) (hm : Ss.length ≤ maxFields)
    (h : ∀ (i : Nat) e S, es[i]? = some e → Ss[i]? = some S → RunsTo H (fun n => eval n ρ e) S)
    (hT : ∀ ws : List Val, ws.length = Ss.length → (∀ (i : Nat) S w, Ss[i]? = some S → ws[i]? = some w → S w) → T (.comp c ws)) :
    RunsTo H (fun n => eval n ρ (.con c tys es)) T := by
  refine RunsTo.step ?_
  simp only [eval_con]
  refine RunsTo.bind (k := fun (vs : List Val) _ => if vs.length ≤ maxFields then Res.ok (Val.comp c vs) else .panic) (monoR_evalList ρ es) (fun vs => monoR_const _)
    (runs_list hl h) fun ws hws => ?_
  have : ws.length ≤ maxFields := by omega
  exact RunsTo.ok (by simp only [if_pos this]) (hT ws hws.1 hws.2)

theorem runs_name {H : String → Prop} {ρ x v} {S : VSet} (h : lookup x ρ = .ok v) (hv : S v) : RunsTo H (fun n => eval n ρ (.name x)) S :=
  RunsTo.step (RunsTo.ok (by rw [eval_name]; exact h) hv)

/-! ### Fields -/

theorem mem_declSig {M : Sem} {δ d args c fields} (h : (c, fields) ∈ declSig M δ d args) :
    ∃ fs, (c, fs) ∈ d.ctors ∧ fields = fs.map (fieldSem M δ (bindVars d.vars args fun _ _ => False)) := by
  simp only [declSig, List.mem_map] at h
  obtain ⟨⟨c', fs⟩, h1, h2⟩ := h
  cases h2
  exact ⟨fs, h1, rfl⟩

/-- The set for a field is the meaning of its type in a match. -/
theorem fieldSem_ty {M : Sem} {Δ : List TypeDecl} (F : Fix M Δ) {d args recTy η c fs f} (hd : declOf Δ d.sym = some d) (hl : args.length = d.vars.length)
    (hc : (c, fs) ∈ d.ctors) (hf : f ∈ fs) :
    (fieldSem M (tyEnv M Δ) (bindVars d.vars (interps M (tyEnv M Δ) η args) fun _ _ => False) f).getD (interp M (tyEnv M Δ) η recTy) =
      interp M (tyEnv M Δ) η (fieldTy d.vars args recTy f) := by
  cases f with
  | rec_ => rfl
  | ty t =>
    simp only [fieldSem, fieldTy, Option.getD_some]
    have hp := ((F.decls.field hd).2 _ hc).2 t hf
    rw [interp_subst (fun v hv => tyEnv_none.mpr (F.vars d (declOf_mem hd) v hv)) hp]
    refine interp_congr t fun x hx => ⟨rfl, fun hn => bindVars_congr (fun hxv => ?_) (by rw [interps_length, hl])⟩
    rcases wfTy_syms (F.wf _ d hd _ hc t hf) x hx with h | h
    · exact absurd h hxv
    · rw [tyEnv_none.mp hn] at h
      cases h

theorem wfTy_field {M : Sem} {Δ : List TypeDecl} (F : Fix M Δ) {d args recTy vs c fs f} (hd : declOf Δ d.sym = some d) (hl : args.length = d.vars.length)
    (hc : (c, fs) ∈ d.ctors) (hf : f ∈ fs) (ha : WfTys Δ vs args) (hr : WfTy Δ vs recTy) : WfTy Δ vs (fieldTy d.vars args recTy f) := by
  cases f with
  | rec_ => exact hr
  | ty t => exact wfTy_subst hl.symm ha (F.wf _ d hd _ hc t hf)

theorem ctor_unique {d : TypeDecl} (hn : (d.ctors.map (·.1)).Nodup) {c fs fs'} (h : (c, fs) ∈ d.ctors) (h' : (c, fs') ∈ d.ctors) : fs = fs' := by
  generalize d.ctors = l at *
  induction l with
  | nil => cases h
  | cons x xs ih =>
    simp only [List.map_cons, List.nodup_cons] at hn
    have hx : ∀ {ys}, (c, ys) ∈ xs → x.1 ≠ c := fun hy e => hn.1 (by rw [e]; exact List.mem_map.mpr ⟨_, hy, rfl⟩)
    rcases List.mem_cons.mp h with e | h
    · rcases List.mem_cons.mp h' with e' | h'
      · rw [← e'] at e; cases e; rfl
      · exact absurd (by rw [← e]) (hx h')
    · rcases List.mem_cons.mp h' with e' | h'
      · exact absurd (by rw [← e']) (hx h)
      · exact ih hn.2 h h'

/-! ### Folds -/

/-- The branch for a constructor of the type folded over. -/
theorem foldBranches_find {M : Sem} {fold args out} (hinj : ∀ c c' n, M.reg c = some n → M.reg c' = some n → c = c') : ∀ {cs g g' bs},
    foldBranches fold args out g cs = some (g', bs) → (∀ c ∈ cs, M.reg c.sym = some c.regular) → (∀ c ∈ cs, fold < g.names) →
    ∀ c ∈ cs, ∀ fields, g.ctorFields c.sym = some fields → (∀ c' ∈ cs, c'.sym = c.sym → c' = c) →
    ∃ ns : List Name, ns.Nodup ∧ ns.length = fields.length ∧ fold ∉ ns ∧
      findBranch c.regular bs = some (.mk c.regular ns (.con c.folded (args ++ [out]) ((fields.zip ns).map fun p => foldField fold p.1 p.2)))
  | [], _, _, _, _, _, _, c, hc, _, _, _ => by cases hc
  | k :: cs, g, g', bs, h, hr, hlt, c, hc, fields, hf, hu => by
    simp only [foldBranches, Option.bind_eq_some_iff, Option.map_eq_some_iff] at h
    obtain ⟨fs, h1, ⟨g2, bs2⟩, h2, h⟩ := h
    cases h
    by_cases hk : k.sym = c.sym
    · have := hu k (by simp) hk
      subst this
      rw [h1] at hf
      cases hf
      refine ⟨(g.freshes fields.length).2, ?_, ?_, ?_, ?_⟩
      · rw [freshes_range]; exact List.nodup_range'
      · rw [freshes_range]; simp
      · rw [freshes_range]
        intro hm
        have := hlt k (by simp)
        simp only [List.mem_range'_1] at hm
        exact absurd this (Nat.not_lt.mpr hm.1)
      · simp only [findBranch, Branch.ctor, if_true]
    · have hne : k.regular ≠ c.regular := fun e => hk (hinj _ _ _ (by rw [← e]; exact hr k (by simp)) (hr c hc))
      have hc' : c ∈ cs := by
        rcases List.mem_cons.mp hc with rfl | h
        · exact absurd rfl hk
        · exact h
      obtain ⟨ns, h3⟩ := foldBranches_find hinj h2 (fun c hc => hr c (by simp [hc])) (fun c hc => Nat.lt_of_lt_of_le (hlt c (by simp [hc])) (ext_freshes _ g).names)
        c hc' fields (by rw [(ext_freshes _ g).fields]; exact hf) (fun c' hc' => hu c' (by simp [hc']))
      refine ⟨ns, h3.1, h3.2.1, h3.2.2.1, ?_⟩
      exact (if_neg hne).trans h3.2.2.2

end Tic.Front
