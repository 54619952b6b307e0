import Verif.GenFns
/-
Generating the declarations of types: the generator never fails, and the constructors get functions
of their types.
-/
namespace Tic.Front
open Tic.Unify (Symbol IrTy)
open Tic.Core

/-- What may change while a type is generated: names of `ss`, type variables `vs`, what is known
of the type and constructor symbols `cs`, and of types with names from `k` on. -/
structure ExtT (k : Name) (ss vs cs : List Symbol) (g g' : Gen) : Prop where
  names : g.names ≤ g'.names
  sym : ∀ s, s ∉ ss → g'.symNames s = g.symNames s
  ty : ∀ s, s ∉ vs → g'.tyVars s = g.tyVars s
  folded : ∀ s, s ∉ cs → g'.foldedNames s = g.foldedNames s
  fields : ∀ s, s ∉ cs → g'.ctorFields s = g.ctorFields s
  ctors : ∀ s, s ∉ cs → g'.ctors s = g.ctors s
  typeCtors : ∀ n, n < k → g'.typeCtors n = g.typeCtors n

theorem ExtT.refl (k ss vs cs) (g : Gen) : ExtT k ss vs cs g g :=
  ⟨Nat.le_refl _, fun _ _ => rfl, fun _ _ => rfl, fun _ _ => rfl, fun _ _ => rfl, fun _ _ => rfl, fun _ _ => rfl⟩

theorem ExtT.trans {k ss vs cs g g' g''} (h : ExtT k ss vs cs g g') (h' : ExtT k ss vs cs g' g'') : ExtT k ss vs cs g g'' where
  names := Nat.le_trans h.names h'.names
  sym s hs := by rw [h'.sym s hs, h.sym s hs]
  ty s hs := by rw [h'.ty s hs, h.ty s hs]
  folded s hs := by rw [h'.folded s hs, h.folded s hs]
  fields s hs := by rw [h'.fields s hs, h.fields s hs]
  ctors s hs := by rw [h'.ctors s hs, h.ctors s hs]
  typeCtors n hn := by rw [h'.typeCtors n hn, h.typeCtors n hn]

theorem ExtT.weaken {k ss vs cs ss' vs' cs' g g'} (h : ExtT k ss vs cs g g') (h1 : ∀ s ∈ ss, s ∈ ss') (h2 : ∀ s ∈ vs, s ∈ vs')
    (h3 : ∀ s ∈ cs, s ∈ cs') : ExtT k ss' vs' cs' g g' :=
  ⟨h.names, fun s hs => h.sym s fun hx => hs (h1 s hx), fun s hs => h.ty s fun hx => hs (h2 s hx), fun s hs => h.folded s fun hx => hs (h3 s hx),
    fun s hs => h.fields s fun hx => hs (h3 s hx), fun s hs => h.ctors s fun hx => hs (h3 s hx), h.typeCtors⟩

theorem Ext.toT {k bs g g'} (h : Ext bs g g') : ExtT k bs bs [] g g' :=
  ⟨h.names, h.sym, h.ty, fun _ _ => by rw [h.folded], fun _ _ => by rw [h.fields], fun _ _ => by rw [h.ctors], fun _ _ => by rw [h.typeCtors]⟩

theorem extT_genName (k : Name) (g : Gen) (s : Symbol) : ExtT k [s] [] [] g (g.genName s).1 :=
  ⟨Nat.le_succ _, fun _ h => by simp only [Gen.genName]; exact setAt_ne (by simpa using h), fun _ _ => rfl, fun _ _ => rfl, fun _ _ => rfl, fun _ _ => rfl, fun _ _ => rfl⟩

/-- The declared types and their names. -/
structure GenB (Δ : List TypeDecl) (k : Name) (g : Gen) : Prop where
  ok : GenOK Δ g
  bound : ∀ s d n, declOf Δ s = some d → g.symNames s = some n → n < k

/-- New symbols. -/
def Away (Δ : List TypeDecl) (l : List Symbol) : Prop := ∀ s d, declOf Δ s = some d → s ∉ l ∧ ∀ c ∈ d.ctors, c.1 ∉ l

theorem mapOpt_congr {α β : Type} {f g : α → Option β} : ∀ {xs : List α}, (∀ x ∈ xs, f x = g x) → mapOpt f xs = mapOpt g xs
  | [], _ => rfl
  | x :: xs, h => by
    simp only [mapOpt, h x (by simp)]
    rw [mapOpt_congr fun y hy => h y (by simp [hy])]

theorem GenB.extT {Δ : List TypeDecl} {k ss vs cs g g'} (h : GenB Δ k g) (e : ExtT k ss vs cs g g') (h1 : Away Δ ss) (h2 : Away Δ vs) (h3 : Away Δ cs) :
    GenB Δ k g' := by
  refine ⟨⟨?_, ?_, ?_, ?_⟩, ?_⟩
  · intro s d hd
    rw [e.ty s (h2 s d hd).1]
    exact h.ok.notVar s d hd
  · intro s d hd
    rw [e.folded s (h3 s d hd).1]
    exact h.ok.folded s d hd
  · intro s d hd
    obtain ⟨n, ks, e1, e2, e3⟩ := h.ok.name s d hd
    refine ⟨n, ks, ?_, ?_, ?_⟩
    · rw [e.sym s (h1 s d hd).1]; exact e1
    · rw [e.typeCtors n (h.bound s d n hd e1)]; exact e2
    · rw [← e3]
      refine mapOpt_congr fun c hc => ?_
      obtain ⟨k, hk, rfl⟩ := List.mem_map.mp hc
      exact e.ctors _ ((h3 s d hd).2 k hk)
  · intro s d hd c hc
    obtain ⟨k, e1, e2, e3⟩ := h.ok.ctor s d hd c hc
    have := (h3 s d hd).2 c hc
    exact ⟨k, by rw [e.ctors _ this]; exact e1, e2, by rw [e.fields _ this]; exact e3⟩
  · intro s d n hd hn
    rw [e.sym s (h1 s d hd).1] at hn
    exact h.bound s d n hd hn

theorem GenB.ext {Δ : List TypeDecl} {k bs g g'} (h : GenB Δ k g) (e : Ext bs g g') (hb : Away Δ bs) : GenB Δ k g' :=
  h.extT e.toT hb hb (fun _ _ _ => ⟨by simp, by simp⟩)

theorem away_nil {Δ : List TypeDecl} : Away Δ [] := fun _ _ _ => ⟨by simp, by simp⟩

theorem Away.none {Δ : List TypeDecl} {l} (h : Away Δ l) : ∀ s ∈ l, declOf Δ s = none := by
  intro s hs
  cases hd : declOf Δ s with
  | none => rfl
  | some d => exact absurd hs (h s d hd).1

theorem GenB.scope {Δ : List TypeDecl} {k g} (h : GenB Δ k g) {vars : List Symbol} (hv : Away Δ vars) : ScopeOK Δ vars [] (g.freshInst vars) := by
  have h0 : ScopeOK Δ [] [] g := ⟨h.ok, (fun _ _ h => nomatch h), (fun _ h => nomatch h)⟩
  simpa using h0.vars_append (vars := vars) fun v hm => ⟨hv.none v hm, rfl⟩

/-- The fields of constructors are well formed. -/
def FieldsOK (Δ : List TypeDecl) (vars : List Symbol) (fs : List Field) : Prop := ∀ t, Field.ty t ∈ fs → WfTy Δ vars t

theorem genFields_some {Δ : List TypeDecl} {vars g r fs} (h : ScopeOK Δ vars [] g) (hf : FieldsOK Δ vars fs) :
    ∃ ts, mapOpt (genField g r) fs = some ts ∧ ts.length = fs.length := by
  refine mapOpt_isSome fun f hm => ?_
  cases f with
  | rec_ => rfl
  | ty t => exact genTy_some h (hf t hm)

theorem genTyCases_ok {Δ : List TypeDecl} {vars r} : ∀ {cs : List (Symbol × List Field)} {g : Gen}, ScopeOK Δ vars [] g →
    (∀ c ∈ cs, g.ctorFields c.1 = some c.2 ∧ FieldsOK Δ vars c.2) →
    ∃ g' tcs, genTyCases r g (cs.map (·.1)) = some (g', tcs) ∧ Ext [] g g' ∧ tcs.map (·.name) = List.range' g.names cs.length ∧
      g'.names = g.names + cs.length
  | [], g, _, _ => ⟨g, [], rfl, Ext.refl _ _, rfl, rfl⟩
  | c :: cs, g, hs, hc => by
    obtain ⟨hf, hok⟩ := hc c (by simp)
    have hs1 : ScopeOK Δ vars [] g.fresh.1 := hs.ext (ext_fresh g) (by simp)
    obtain ⟨ts, ht, -⟩ := genFields_some (r := r) hs1 hok
    obtain ⟨g', tcs, h1, h2, h3, h4⟩ := genTyCases_ok (r := r) (cs := cs) hs1 (fun c hc' => hc c (by simp [hc']))
    refine ⟨g', ⟨g.names, ts⟩ :: tcs, ?_, (ext_fresh g).trans h2, ?_, ?_⟩
    · simp only [List.map_cons, genTyCases]
      have e1 : g.fresh.1.ctorFields c.1 = some c.2 := hf
      rw [e1, Option.bind_some, ht, Option.bind_some, h1]
      rfl
    · simp only [List.map_cons, h3, List.length_cons, List.range'_succ, Gen.fresh]
    · rw [h4]
      simp only [Gen.fresh, List.length_cons]
      exact Nat.add_right_comm _ _ _ 

/-- The record of a constructor's names (`gen_core.rs:251-268`). -/
def newCtor (functor : Bool) (old : Option Ctor) (c : Symbol) (cn m : Name) : Ctor :=
  match old with
  | some k => if functor then { k with folded := cn, foldedCtorFn := m } else { k with regular := cn, ctorFn := m }
  | none => ⟨c, cn, cn, m, m⟩

theorem ext_foldedInst (g : Gen) (functor : Bool) : Ext [] g (g.foldedInst functor).1 := by
  cases functor
  · exact Ext.refl _ _
  · exact ⟨Nat.le_refl _, fun _ _ => rfl, fun _ _ => rfl, fun _ h => h, rfl, rfl, rfl, rfl, rfl, rfl⟩

theorem genCtorFn_ok {Δ : List TypeDecl} {k : Name} {vars : List Symbol} {functor : Bool} {tyName : Name} {g : Gen} {c : Symbol} {cn : Name} {fields : List Field}
    (hb : GenB Δ k g) (hv : Away Δ vars) (hca : Away Δ [c]) (hcv : c ∉ vars) (hf : g.ctorFields c = some fields) (hok : FieldsOK Δ vars fields) :
    ∃ g', genCtorFn functor tyName vars g c cn = some g' ∧ ExtT k (if functor then vars else c :: vars) vars [c] g g' ∧
      g'.ctorFields = g.ctorFields ∧ g'.foldedNames = g.foldedNames ∧ g'.typeCtors = g.typeCtors ∧ g'.types = g.types ∧
      (∃ m, g'.ctors = setAt g.ctors c (newCtor functor (g.ctors c) c cn m)) ∧
      (functor = true → g'.defs = g.defs) ∧
      (functor = false → g'.symNames c = some g.names ∧ g.names < g'.names ∧ ∃ (ty : Ty) (tvs : List TyVar) (ps : List Name) (ts tys : List Ty), ps.Nodup ∧ ps.length = fields.length ∧ ts.length = fields.length ∧
        g'.defs = g.defs ++ [⟨g.names, none, ty, pis tvs ((ps.zip ts).foldr (fun p e => .lam [p] e) (.con cn tys (ps.map .name)))⟩]) := by
  -- the name of the function
  let n : Gen × Name := if functor then g.fresh else g.genName c
  have hn1 : ExtT k (if functor then vars else c :: vars) vars [c] g n.1 := by
    cases functor
    · exact (extT_genName k g c).weaken (by simp) (by simp) (by simp)
    · exact (ext_fresh g).toT.weaken (by simp) (by simp) (by simp)
  have hnf : n.1.ctorFields = g.ctorFields ∧ n.1.foldedNames = g.foldedNames ∧ n.1.typeCtors = g.typeCtors ∧ n.1.ctors = g.ctors ∧ n.1.defs = g.defs ∧
      n.2 = g.names ∧ n.1.names = g.names + 1 ∧ n.1.types = g.types := by
    cases functor <;> exact ⟨rfl, rfl, rfl, rfl, rfl, rfl, rfl, rfl⟩
  have hns : functor = false → n.1.symNames c = some g.names := by
    intro h
    simp only [n, h]
    exact setAt_eq
  have hss : Away Δ (if functor then vars else c :: vars) := by
    intro s d hd
    have h1 := hv s d hd
    have h2 := hca s d hd
    cases functor
    · refine ⟨?_, fun k hk => ?_⟩
      · simp only [Bool.false_eq_true, if_false, List.mem_cons, not_or]
        exact ⟨by simpa using h2.1, h1.1⟩
      · simp only [Bool.false_eq_true, if_false, List.mem_cons, not_or]
        exact ⟨by simpa using h2.2 k hk, h1.2 k hk⟩
    · simpa using h1
  have hb1 : GenB Δ k n.1 := hb.extT hn1 hss hv hca
  -- the function
  let fi := n.1.foldedInst functor
  let g3 := fi.1.freshInst vars
  let ps := g3.freshes fields.length
  have e12 : Ext [] n.1 fi.1 := ext_foldedInst _ _
  have e23 : Ext vars fi.1 g3 := ext_freshInst _ _
  have e34 : Ext [] g3 ps.1 := ext_freshes _ _
  have s3 : ScopeOK Δ vars [] ps.1 := ((hb1.ext e12 away_nil).scope hv).ext e34 (by simp)
  have e14 : Ext vars n.1 ps.1 := ((e12.trans e23).trans e34).weaken (by simp)
  obtain ⟨vs, hvs, -⟩ := mapOpt_isSome (f := ps.1.tyVars) (xs := vars) fun v hm => (s3.vars v hm).1
  obtain ⟨ts, hts, htl⟩ := genFields_some (r := recFieldTy tyName vs fi.2) s3 hok
  -- its type
  let fi' := ps.1.foldedInst functor
  let g6 := fi'.1.freshInst vars
  have e45 : Ext [] ps.1 fi'.1 := ext_foldedInst _ _
  have e56 : Ext vars fi'.1 g6 := ext_freshInst _ _
  have hb4 : GenB Δ k ps.1 := hb1.ext e14 hv
  have s6 : ScopeOK Δ vars [] g6 := (hb4.ext e45 away_nil).scope hv
  have e16 : Ext vars n.1 g6 := ((e14.trans e45).trans e56).weaken (by simp)
  obtain ⟨vs', hvs', -⟩ := mapOpt_isSome (f := g6.tyVars) (xs := vars) fun v hm => (s6.vars v hm).1
  obtain ⟨ts', hts', -⟩ := genFields_some (r := recFieldTy tyName vs' fi'.2) s6 hok
  have hf1 : n.1.ctorFields c = some fields := by rw [hnf.1]; exact hf
  have hrun : genCtorFn functor tyName vars g c cn = some { g6 with
      defs := if functor then g6.defs else g6.defs ++ [⟨n.2, none, absTys (vs' ++ fi'.2) (ts'.foldr (fun t u => .fn [t] u) (.named tyName ((vs' ++ fi'.2).map .var))),
        pis (vs ++ fi.2) ((ps.2.zip ts).foldr (fun p e => .lam [p] e) (.con cn ((vs ++ fi.2).map .var) (ps.2.map .name)))⟩]
      ctors := setAt g6.ctors c (newCtor functor (g6.ctors c) c cn n.2) } := by
    show ((n.1.ctorFields c).bind _) = _
    rw [hf1, Option.bind_some]
    show ((mapOpt ps.1.tyVars vars).bind _) = _
    rw [hvs, Option.bind_some]
    show ((mapOpt (genField ps.1 (recFieldTy tyName vs fi.2)) fields).bind _) = _
    rw [hts, Option.bind_some]
    show ((mapOpt g6.tyVars vars).bind _) = _
    rw [hvs', Option.bind_some]
    show ((mapOpt (genField g6 (recFieldTy tyName vs' fi'.2)) fields).map _) = _
    rw [hts', Option.map_some]
    congr 1
  have e1 : ExtT k (if functor then vars else c :: vars) vars [c] n.1 g6 := e16.toT.weaken (by cases functor <;> simp +contextual) (by simp) (by simp)
  have e06 := hn1.trans e1
  refine ⟨_, hrun, ?_, ?_, ?_, ?_, e16.types.trans hnf.2.2.2.2.2.2.2, ?_, ?_, ?_⟩
  · refine ⟨e06.names, e06.sym, e06.ty, e06.folded, e06.fields, fun s hs => ?_, e06.typeCtors⟩
    show setAt g6.ctors c _ s = _
    rw [setAt_ne (by simpa using hs)]
    exact e06.ctors s hs
  · exact e16.fields.trans hnf.1
  · exact e16.folded.trans hnf.2.1
  · exact e16.typeCtors.trans hnf.2.2.1
  · refine ⟨n.2, ?_⟩
    show setAt g6.ctors c _ = _
    rw [e16.ctors, hnf.2.2.2.1]
  · intro h
    show (if functor then g6.defs else _) = _
    rw [h, if_pos rfl]
    exact e16.defs.trans hnf.2.2.2.2.1
  · intro h
    refine ⟨(e16.sym c hcv).trans (hns h), ?_, absTys (vs' ++ fi'.2) (ts'.foldr (fun t u => .fn [t] u) (.named tyName ((vs' ++ fi'.2).map .var))), vs ++ fi.2, ps.2, ts, (vs ++ fi.2).map .var, ?_, ?_, htl, ?_⟩
    · refine Nat.lt_of_lt_of_le ?_ e16.names
      rw [hnf.2.2.2.2.2.2.1]
      exact Nat.lt_succ_self _
    · simp only [ps, freshes_range]; exact List.nodup_range'
    · simp only [ps, freshes_range, List.length_range']
    · show (if functor then g6.defs else _) = _
      rw [h, if_neg (by simp), e16.defs, hnf.2.2.2.2.1, hnf.2.2.2.2.2.1]

/-! ### All constructors -/

theorem evalDefs_append {n : Nat} : ∀ {ds ds' : List ValueDef} {ρ : Env}, evalDefs n (ds ++ ds') ρ = (evalDefs n ds ρ).bind (evalDefs n ds')
  | [], ds', ρ => rfl
  | d :: ds, ds', ρ => by
    simp only [List.cons_append, evalDefs]
    cases eval n ρ d.value with
    | ok v => exact evalDefs_append
    | _ => rfl

theorem monoR_evalDefs (ds : List ValueDef) (ρ : Env) : MonoR (fun n => evalDefs n ds ρ) := fun _ _ h => evalDefs_le h ds ρ

theorem runs_defs_append {H : String → Prop} {ds ds' : List ValueDef} {ρ : Env} {S T : Env → Prop} (h : RunsTo H (fun n => evalDefs n ds ρ) S)
    (h' : ∀ ρ', S ρ' → RunsTo H (fun n => evalDefs n ds' ρ') T) : RunsTo H (fun n => evalDefs n (ds ++ ds') ρ) T := by
  simp only [evalDefs_append]
  exact RunsTo.bind (k := fun ρ' n => evalDefs n ds' ρ') (monoR_evalDefs ds ρ) (fun ρ' => monoR_evalDefs ds' ρ') h h'

theorem runs_defs_one {H : String → Prop} {d : ValueDef} {ρ : Env} {S : VSet} {T : Env → Prop} (h : RunsTo H (fun n => eval n ρ d.value) S)
    (h' : ∀ v, S v → T ((d.name, v) :: ρ)) : RunsTo H (fun n => evalDefs n [d] ρ) T := by
  simp only [evalDefs]
  exact RunsTo.bind (k := fun v _ => Res.ok ((d.name, v) :: ρ)) (monoR_eval ρ d.value) (fun v => monoR_const _) h fun v hv => RunsTo.ok rfl (h' v hv)

theorem wfTys_varNames {Δ : List TypeDecl} {vs} : ∀ {xs : List Symbol}, (∀ x ∈ xs, x ∈ vs ∧ declOf Δ x = none) → WfTys Δ vs (xs.map fun v => .named v [])
  | [], _ => by simp [WfTys]
  | x :: xs, h => by
    simp only [List.map_cons, WfTys, WfTy]
    refine ⟨⟨.inl (h x (by simp)).1, ?_, trivial⟩, wfTys_varNames fun y hy => h y (by simp [hy])⟩
    simp [arity, (h x (by simp)).2]

theorem plains_vars : ∀ (xs : List Symbol), Plains (xs.map fun v => .named v [])
  | [] => by simp [Plains]
  | x :: xs => by simp [Plains, Plain, plains_vars xs]

theorem wf_ctorTy {M : Sem} {Δ : List TypeDecl} (F : Fix M Δ) {d : TypeDecl} (hd : declOf Δ d.sym = some d) {c fields} (hc : (c, fields) ∈ d.ctors) :
    WfTy Δ d.vars (ctorTy ⟨d.sym, d.vars, fields⟩) ∧ Plain (ctorTy ⟨d.sym, d.vars, fields⟩) := by
  have hw : WfTy Δ d.vars (.named d.sym (d.vars.map fun v => .named v [])) := by
    simp only [WfTy]
    exact ⟨.inr (by simp [hd]), by simp [arity, hd], wfTys_varNames fun x hx => ⟨hx, F.vars d (declOf_mem hd) x hx⟩⟩
  have hp : Plain (.named d.sym (d.vars.map fun v => .named v [])) := by simpa only [Plain] using plains_vars d.vars
  have h1 : ∀ t, Field.ty t ∈ fields → WfTy Δ d.vars t ∧ Plain t := fun t ht => ⟨F.wf _ d hd _ hc t ht, ((F.decls.field hd).2 _ hc).2 t ht⟩
  simp only [ctorTy]
  clear hc
  induction fields with
  | nil => exact ⟨hw, hp⟩
  | cons f fs ih =>
    have ih := ih fun t ht => h1 t (by simp [ht])
    simp only [List.foldr_cons, WfTy, Plain]
    cases f with
    | rec_ => exact ⟨⟨hw, ih.1⟩, hp, ih.2⟩
    | ty t => exact ⟨⟨(h1 t (by simp)).1, ih.1⟩, (h1 t (by simp)).2, ih.2⟩

theorem ValsOK.extT {M : Sem} {Δ vs η Γ g g' ρ k ss us cs} (h : ValsOK M Δ vs η Γ g ρ) (he : ExtT k ss us cs g g') (hb : ∀ b ∈ ss, Γ.find b = none) :
    ValsOK M Δ vs η Γ g' ρ := by
  intro s sch hs
  obtain ⟨h1, h2, h3, n, v, h4, h5, h6, h7⟩ := h s sch hs
  refine ⟨h1, h2, h3, n, v, ?_, Nat.lt_of_lt_of_le h5 he.names, h6, h7⟩
  rw [he.sym s (fun hbs => by rw [hb s hbs] at hs; cases hs)]
  exact h4

/-- The types of constructors. -/
def ctorsCtx (s : Symbol) (vars : List Symbol) (cs : List (Symbol × List Field)) : Ctx :=
  (cs.map fun c => (c.1, (⟨vars, ctorTy ⟨s, vars, c.2⟩⟩ : Scheme))).reverse

theorem find_append {Γ Γ' : Ctx} {s} : (Γ ++ Γ').find s = (Γ.find s).orElse fun _ => Γ'.find s := by
  induction Γ with
  | nil => rfl
  | cons p Γ ih =>
    obtain ⟨k, v⟩ := p
    simp only [List.cons_append, Ctx.find]
    split
    · rfl
    · exact ih

theorem find_none_of {Γ : Ctx} {s} (h : s ∉ Γ.map (·.1)) : Γ.find s = none := by
  induction Γ with
  | nil => rfl
  | cons p Γ ih =>
    obtain ⟨k, v⟩ := p
    simp only [List.map_cons, List.mem_cons, not_or] at h
    simp only [Ctx.find]
    exact (if_neg fun e => h.1 e.symm).trans (ih h.2)

/-- The definitions of constructor functions: one for each constructor, in order, with increasing
names from `b` on. -/
inductive CtorDefs : Name → List (Symbol × List Field) → List Name → List ValueDef → Prop
  | nil {b} : CtorDefs b [] [] []
  | cons {b} {c : Symbol × List Field} {n cs ns ds} {e : ValueDef} {tvs : List TyVar} {ps : List Name} {ts tys : List Ty} : b ≤ e.name →
      e.value = pis tvs (lams (ps.zip ts) (.con n tys (ps.map .name))) → ps.Nodup → ps.length = c.2.length → ts.length = c.2.length →
      CtorDefs (e.name + 1) cs ns ds → CtorDefs b (c :: cs) (n :: ns) (e :: ds)

theorem CtorDefs.mono {b b' cs ns ds} (h : CtorDefs b cs ns ds) (hb : b' ≤ b) : CtorDefs b' cs ns ds := by
  cases h with
  | nil => exact .nil
  | cons h1 h2 h3 h4 h5 h6 => exact .cons (Nat.le_trans hb h1) h2 h3 h4 h5 h6

theorem CtorDefs.get {b cs ns ds} (h : CtorDefs b cs ns ds) : ∀ {i : Nat} {c}, cs[i]? = some c → ∃ e, ds[i]? = some e := by
  induction h with
  | nil => intro i c hc; simp at hc
  | cons _ _ _ _ _ _ ih =>
    intro i c hc
    cases i with
    | zero => exact ⟨_, rfl⟩
    | succ i => simpa using ih (by simpa using hc)

/-- The names of constructors are those of their definitions. -/
def CtorNames (g : Gen) (cs : List (Symbol × List Field)) (ds : List ValueDef) : Prop :=
  ∀ (i : Nat) c e, cs[i]? = some c → ds[i]? = some e → g.symNames c.1 = some e.name ∧ e.name < g.names

/-- What the definitions of constructor functions have to do. -/
def CtorDefsOK (ss : List Symbol) (g g' : Gen) (vars : List Symbol) (cs : List (Symbol × List Field)) (ns : List Name) (ds : List ValueDef) : Prop :=
  ∀ (M : Sem) (Δ : List TypeDecl), Fix M Δ → ∀ d : TypeDecl, declOf Δ d.sym = some d → d.vars = vars → (∀ c ∈ cs, c ∈ d.ctors) →
    (∀ p ∈ (cs.map (·.1)).zip ns, M.reg p.1 = some p.2) → ∀ (Γ : Ctx) (ρ : Env) (η : Symbol → VSet), ValsOK M Δ [] η Γ g ρ →
    (∀ v ∈ ss, Γ.find v = none) →
    RunsTo M.H (fun n => evalDefs n ds ρ) fun ρ' => ValsOK M Δ [] η (ctorsCtx d.sym vars cs ++ Γ) g' ρ'

theorem genCtorFns_ok {Δ : List TypeDecl} {k : Name} {vars : List Symbol} {functor : Bool} {tyName : Name} (hv : Away Δ vars) :
    ∀ {cs : List (Symbol × List Field)} {ns : List Name} {g : Gen}, cs.length = ns.length → GenB Δ k g → Away Δ (cs.map (·.1)) → (∀ c ∈ cs, c.1 ∉ vars) →
    (cs.map (·.1)).Nodup → (∀ c ∈ cs, g.ctorFields c.1 = some c.2 ∧ FieldsOK Δ vars c.2) →
    ∃ g', genCtorFns functor tyName vars g ((cs.map (·.1)).zip ns) = some g' ∧ ExtT k (if functor then vars else cs.map (·.1) ++ vars) vars (cs.map (·.1)) g g' ∧
      g'.ctorFields = g.ctorFields ∧ g'.foldedNames = g.foldedNames ∧ g'.typeCtors = g.typeCtors ∧ g'.types = g.types ∧
      (∀ p ∈ (cs.map (·.1)).zip ns, ∃ m, g'.ctors p.1 = some (newCtor functor (g.ctors p.1) p.1 p.2 m)) ∧
      (functor = true → g'.defs = g.defs) ∧
      (functor = false → (∀ c ∈ cs, (g'.symNames c.1).isSome) ∧ ∃ ds, g'.defs = g.defs ++ ds ∧ (∀ e ∈ ds, e.exportName = none) ∧ CtorDefs g.names cs ns ds ∧ CtorNames g' cs ds ∧ CtorDefsOK vars g g' vars cs ns ds)
  | [], [], g, _, _, _, _, _, _ => by
    refine ⟨g, rfl, ExtT.refl _ _ _ _ _, rfl, rfl, rfl, rfl, by simp, fun _ => rfl, fun _ => ⟨by simp, [], by simp, by simp, .nil, by intro i c e hi; simp at hi, ?_⟩⟩
    intro M Δ' F d hd hdv hc hr Γ ρ η hval hvn
    exact RunsTo.ok (v := ρ) rfl (by simpa [ctorsCtx] using hval)
  | c :: cs, n :: ns, g, hl, hb, hca, hcv, hnd, hf => by
    have hca1 : Away Δ [c.1] := fun s d hd => ⟨fun h => (hca s d hd).1 (by simp at h; simp [h]), fun k hk h => (hca s d hd).2 k hk (by simp at h; simp [h])⟩
    have hca2 : Away Δ (cs.map (·.1)) := fun s d hd => ⟨fun h => (hca s d hd).1 (List.mem_cons_of_mem _ h), fun k hk h => (hca s d hd).2 k hk (List.mem_cons_of_mem _ h)⟩
    obtain ⟨g1, r1, x1, f1, f2, f3, f4, ⟨m, hm⟩, hT, hF⟩ := genCtorFn_ok (functor := functor) (tyName := tyName) (cn := n) hb hv hca1 (hcv c (by simp))
      (hf c (by simp)).1 (hf c (by simp)).2
    have hss : Away Δ (if functor then vars else c.1 :: vars) := by
      intro s d hd
      have h1 := hv s d hd
      have h2 := hca1 s d hd
      cases functor
      · refine ⟨?_, fun k hk => ?_⟩
        · simp only [Bool.false_eq_true, if_false, List.mem_cons, not_or]
          exact ⟨by simpa using h2.1, h1.1⟩
        · simp only [Bool.false_eq_true, if_false, List.mem_cons, not_or]
          exact ⟨by simpa using h2.2 k hk, h1.2 k hk⟩
      · simpa using h1
    simp only [List.map_cons, List.nodup_cons] at hnd
    obtain ⟨g2, r2, x2, k1, k2, k3, k4, hm2, hT2, hF2⟩ := genCtorFns_ok (functor := functor) (tyName := tyName) hv (cs := cs) (ns := ns) (g := g1) (by simpa using hl)
      (hb.extT x1 hss hv hca1) hca2 (fun c hc => hcv c (by simp [hc])) hnd.2 (fun c hc => by rw [f1]; exact hf c (by simp [hc]))
    refine ⟨g2, ?_, ?_, k1.trans f1, k2.trans f2, k3.trans f3, k4.trans f4, ?_, fun h => (hT2 h).trans (hT h), fun h => ?_⟩
    · simp only [List.map_cons, List.zip_cons_cons, genCtorFns, r1, Option.bind_some, r2]
    · refine (x1.weaken ?_ (fun _ h => h) ?_).trans (x2.weaken ?_ (fun _ h => h) ?_)
      · cases functor <;> simp +contextual
      · simp
      · cases functor <;> simp +contextual
      · simp +contextual
    · intro p hp
      simp only [List.map_cons, List.zip_cons_cons, List.mem_cons] at hp
      rcases hp with rfl | hp
      · refine ⟨m, ?_⟩
        rw [x2.ctors _ hnd.1, hm]
        exact setAt_eq
      · obtain ⟨m', h'⟩ := hm2 p hp
        refine ⟨m', ?_⟩
        have hne : p.1 ≠ c.1 := fun e => hnd.1 (e ▸ (List.of_mem_zip hp).1)
        rw [hm, setAt_ne hne] at h'
        exact h'
    · obtain ⟨hsym, hlt, ty, tvs, ps, ts, tys, hpn, hpl, htl, hds⟩ := hF h
      obtain ⟨hsn2, ds, hds2, hex, hcd2, hcn2, hsem⟩ := hF2 h
      refine ⟨?_, ⟨g.names, none, ty, pis tvs ((ps.zip ts).foldr (fun p e => .lam [p] e) (.con n tys (ps.map .name)))⟩ :: ds, by rw [hds2, hds]; simp, ?_, ?_, ?_, ?_⟩
      · intro c' hc'
        rcases List.mem_cons.mp hc' with rfl | hc'
        · rw [x2.sym c'.1 ?_, hsym]
          · rfl
          · rw [h]
            simp only [Bool.false_eq_true, if_false, List.mem_append, not_or]
            exact ⟨hnd.1, hcv c' (by simp)⟩
        · exact hsn2 c' hc'
      · intro e he
        rcases List.mem_cons.mp he with rfl | he
        · rfl
        · exact hex e he
      · exact .cons (Nat.le_refl _) rfl hpn hpl htl (hcd2.mono hlt)
      · intro i c' e hi he
        cases i with
        | zero =>
          simp only [List.getElem?_cons_zero, Option.some.injEq] at hi he
          subst hi; subst he
          refine ⟨?_, Nat.lt_of_lt_of_le hlt x2.names⟩
          rw [x2.sym c.1 ?_, hsym]
          rw [h]
          simp only [Bool.false_eq_true, if_false, List.mem_append, not_or]
          exact ⟨hnd.1, hcv c (by simp)⟩
        | succ i => exact hcn2 i c' e (by simpa using hi) (by simpa using he)
      intro M Δ' F d hd hdv hc hr Γ ρ η hval hvn
      have hcd : (c.1, c.2) ∈ d.ctors := hc c (by simp)
      have hw := wf_ctorTy F hd hcd
      have run : RunsTo M.H (fun fuel => evalDefs fuel [⟨g.names, none, ty, pis tvs ((ps.zip ts).foldr (fun p e => .lam [p] e) (.con n tys (ps.map .name)))⟩] ρ)
          fun ρ' => ValsOK M Δ' [] η ((c.1, ⟨vars, ctorTy ⟨d.sym, vars, c.2⟩⟩) :: Γ) g1 ρ' := by
        haveI : Inhabited { Ss : List VSet // Ss.length = vars.length } := ⟨⟨List.replicate vars.length fun _ => False, by simp⟩⟩
        refine runs_defs_one (S := fun v => ∀ i : { Ss : List VSet // Ss.length = vars.length }, interp M (tyEnv M Δ') (bindVars vars i.1 η) (ctorTy ⟨d.sym, vars, c.2⟩) v) ?_ ?_
        · refine runs_pis (RunsTo.all (monoR_eval _ _) fun i => ?_)
          have := runs_ctor (tys := tys) F hd hcd (hr (c.1, n) (by simp)) hpn hpl htl (bindVars vars i.1 η) ρ
          rw [hdv] at this
          exact this
        · intro v hv'
          have hadd := hval.add (s := c.1) (sch := ⟨vars, ctorTy ⟨d.sym, vars, c.2⟩⟩) (v := v) (by simpa [← hdv] using hw.1) (.inr (by rw [← hdv]; exact hw.2))
            (fun x hx => F.vars d (declOf_mem hd) x (by rw [hdv]; exact hx)) (fun Ss hl => hv' ⟨Ss, hl⟩)
          intro s sch hs
          obtain ⟨a1, a2, a3, k, w, a4, a5, a6, a7⟩ := hadd s sch hs
          refine ⟨a1, a2, a3, k, w, ?_, ?_, a6, a7⟩
          · by_cases hsc : s = c.1
            · subst hsc
              rw [hsym]
              simpa [Gen.genName] using a4
            · rw [x1.sym s ?_]
              · simpa [Gen.genName, setAt_ne hsc] using a4
              · rw [h]
                simp only [Bool.false_eq_true, if_false, List.mem_cons, not_or]
                refine ⟨hsc, fun hsv => ?_⟩
                simp only [Ctx.find] at hs
                rw [show (if c.1 = s then _ else _) = _ from if_neg (Ne.symm hsc), hvn s hsv] at hs
                cases hs
          · exact Nat.lt_of_lt_of_le a5 hlt
      have := runs_defs_append (ds' := ds) run fun ρ' hρ' => hsem M Δ' F d hd hdv (fun c hc' => hc c (by simp [hc'])) (fun p hp => hr p (by simp [hp])) _ ρ' η hρ' (fun v hv' => by
          simp only [Ctx.find]
          exact (if_neg fun (e : c.1 = v) => hcv c (by simp) (e ▸ hv')).trans (hvn v hv'))
      refine this.imp fun ρ' h' => ?_
      simpa [ctorsCtx] using h'

/-! ### A type -/

theorem away_sub {Δ : List TypeDecl} {l l' : List Symbol} (h : Away Δ l) (hs : ∀ s ∈ l', s ∈ l) : Away Δ l' :=
  fun s d hd => ⟨fun hm => (h s d hd).1 (hs s hm), fun c hc hm => (h s d hd).2 c hc (hs _ hm)⟩

theorem genTypeItem_ok {Δ : List TypeDecl} {k : Name} {functor : Bool} {g : Gen} {d : TypeDecl} (hkn : k ≤ g.names) (hb : GenB Δ k g)
    (ha : Away Δ (d.sym :: (d.vars ++ d.ctors.map (·.1)))) (hnd : (d.sym :: (d.vars ++ d.ctors.map (·.1))).Nodup)
    (hf : ∀ c ∈ d.ctors, g.ctorFields c.1 = some c.2 ∧ FieldsOK Δ d.vars c.2)
    (hoT : functor = true → ∃ o, g.symNames d.sym = some o ∧ k ≤ o ∧ o < g.names) (hoF : functor = false → g.foldedNames d.sym = none) :
    ∃ g' ns cs, genTypeItem functor g d = some g' ∧ ns.length = d.ctors.length ∧ ns.Nodup ∧ (∀ n ∈ ns, g.names ≤ n ∧ n < g'.names) ∧
      ExtT k (if functor then d.vars else d.sym :: (d.ctors.map (·.1) ++ d.vars)) d.vars (d.sym :: d.ctors.map (·.1)) g g' ∧
      g'.ctorFields = g.ctorFields ∧ g'.ctors d.sym = g.ctors d.sym ∧
      (∃ td : TyDef, g'.types = g.types ++ [td] ∧ td.cases.map (·.name) = ns) ∧
      (∀ p ∈ (d.ctors.map (·.1)).zip ns, ∃ m, g'.ctors p.1 = some (newCtor functor (g.ctors p.1) p.1 p.2 m)) ∧
      (functor = true → g'.defs = g.defs ∧ (g'.foldedNames d.sym).isSome ∧
        ∀ o, g.symNames d.sym = some o → g'.typeCtors o = some cs ∧ mapOpt g'.ctors (d.ctors.map (·.1)) = some cs) ∧
      (functor = false → g'.foldedNames = g.foldedNames ∧ g'.symNames d.sym = some g.names ∧ g.names < g'.names ∧
        (∀ c ∈ d.ctors, (g'.symNames c.1).isSome) ∧ ∃ ds, g'.defs = g.defs ++ ds ∧ (∀ e ∈ ds, e.exportName = none) ∧ CtorDefs g.names d.ctors ns ds ∧ CtorNames g' d.ctors ds ∧
          CtorDefsOK (d.sym :: d.vars) g g' d.vars d.ctors ns ds) := by
  simp only [List.nodup_cons, List.mem_append, not_or] at hnd
  obtain ⟨⟨hdv, hdc⟩, hnd⟩ := hnd
  obtain ⟨hvn, hcn, hvc⟩ := List.nodup_append.mp hnd
  have hav : Away Δ d.vars := away_sub ha (by simp +contextual)
  have hac : Away Δ (d.ctors.map (·.1)) := away_sub ha (by simp +contextual)
  have has : Away Δ (if functor then d.vars else d.sym :: (d.ctors.map (·.1) ++ d.vars)) := away_sub ha (by cases functor <;> grind)
  have hasc : Away Δ (d.sym :: d.ctors.map (·.1)) := away_sub ha (by simp +contextual)
  have hcv : ∀ c ∈ d.ctors, c.1 ∉ d.vars := fun c hc hm => hvc _ hm _ (List.mem_map_of_mem hc) rfl
  -- the name of the type
  let n : Gen × Name := if functor then ({ g.fresh.1 with foldedNames := setAt g.foldedNames d.sym g.names }, g.names) else g.genName d.sym
  have hn1 : ExtT k (if functor then d.vars else d.sym :: (d.ctors.map (·.1) ++ d.vars)) d.vars (d.sym :: d.ctors.map (·.1)) g n.1 := by
    cases functor
    · exact (extT_genName k g d.sym).weaken (by simp) (by simp) (by simp)
    · refine ⟨Nat.le_succ _, fun _ _ => rfl, fun _ _ => rfl, fun s hs => ?_, fun _ _ => rfl, fun _ _ => rfl, fun _ _ => rfl⟩
      exact setAt_ne fun e => hs (by simp [e])
  have hnf : n.1.ctorFields = g.ctorFields ∧ n.1.typeCtors = g.typeCtors ∧ n.1.ctors = g.ctors ∧ n.1.defs = g.defs ∧
      n.2 = g.names ∧ n.1.names = g.names + 1 ∧ n.1.types = g.types := by
    cases functor <;> exact ⟨rfl, rfl, rfl, rfl, rfl, rfl, rfl⟩
  have hb1 : GenB Δ k n.1 := hb.extT hn1 has hav hasc
  let g1 := n.1.freshInst d.vars
  have e01 : Ext d.vars n.1 g1 := ext_freshInst _ _
  have s1 : ScopeOK Δ d.vars [] g1 := hb1.scope hav
  obtain ⟨vs, hvs, -⟩ := mapOpt_isSome (f := g1.tyVars) (xs := d.vars) fun v hm => (s1.vars v hm).1
  let fi := g1.foldedInst functor
  have e12 : Ext [] g1 fi.1 := ext_foldedInst _ _
  have hf2 : ∀ c ∈ d.ctors, fi.1.ctorFields c.1 = some c.2 ∧ FieldsOK Δ d.vars c.2 := fun c hc =>
    ⟨by rw [e12.fields, e01.fields, hnf.1]; exact (hf c hc).1, (hf c hc).2⟩
  obtain ⟨g3, tcs, r3, e23, hns, hg3⟩ := genTyCases_ok (r := recFieldTy n.2 vs fi.2) (s1.ext e12 (by simp)) hf2
  have e03 : Ext d.vars n.1 g3 := ((e01.trans e12).trans e23).weaken (by simp)
  have hlen : d.ctors.length = (tcs.map (·.name)).length := by rw [hns]; simp
  obtain ⟨g4, r4, x34, k1, k2, k3, k4, hm, hT, hF⟩ := genCtorFns_ok (functor := functor) (tyName := n.2) hav hlen (hb1.ext e03 hav) hac hcv hcn
    (fun c hc => ⟨by rw [e23.fields]; exact (hf2 c hc).1, (hf2 c hc).2⟩)
  obtain ⟨cs, hcs, -⟩ := mapOpt_isSome (f := g4.ctors) (xs := d.ctors.map (·.1)) (fun c hc => by
    obtain ⟨i, hi, he⟩ := List.mem_iff_getElem.mp hc
    have hi' : i < (tcs.map (·.name)).length := by rw [← hlen]; simpa using hi
    obtain ⟨m, hm'⟩ := hm ((d.ctors.map (·.1))[i], (tcs.map (·.name))[i]) (by
      rw [← List.getElem_zip (h := by simp only [List.length_zip]; exact Nat.lt_min.mpr ⟨hi, hi'⟩)]
      exact List.getElem_mem _)
    simp only at hm'
    rw [← he, hm']
    rfl)
  let other := if functor then g4.symNames d.sym else g4.foldedNames d.sym
  let tc : Name → Option (List Ctor) := match other with
    | some o => setAt g4.typeCtors o cs
    | none => g4.typeCtors
  have hrun : genTypeItem functor g d = some { g4 with typeCtors := setAt tc n.2 cs, types := g4.types ++ [⟨n.2, vs ++ fi.2, tcs⟩] } := by
    show ((mapOpt g1.tyVars d.vars).bind _) = _
    rw [hvs, Option.bind_some]
    show ((genTyCases (recFieldTy n.2 vs fi.2) fi.1 (d.ctors.map (·.1))).bind _) = _
    rw [r3, Option.bind_some]
    show ((genCtorFns functor n.2 d.vars g3 ((d.ctors.map (·.1)).zip (tcs.map (·.name)))).bind _) = _
    rw [r4, Option.bind_some]
    show ((mapOpt g4.ctors (d.ctors.map (·.1))).map _) = _
    rw [hcs, Option.map_some]
    rfl
  have x13 : ExtT k (if functor then d.vars else d.sym :: (d.ctors.map (·.1) ++ d.vars)) d.vars (d.sym :: d.ctors.map (·.1)) n.1 g3 :=
    e03.toT.weaken (by cases functor <;> simp +contextual) (by simp) (by simp)
  have x34' : ExtT k (if functor then d.vars else d.sym :: (d.ctors.map (·.1) ++ d.vars)) d.vars (d.sym :: d.ctors.map (·.1)) g3 g4 :=
    x34.weaken (by cases functor <;> grind) (by simp) (fun _ h => List.mem_cons_of_mem _ h)
  have x04 := (hn1.trans x13).trans x34'
  have hg3' : g3.names = g.names + 1 + d.ctors.length := by
    rw [hg3]
    have : fi.1.names = g1.names := by
      show (g1.foldedInst functor).1.names = _
      cases functor <;> rfl
    rw [this, freshInst_names, hnf.2.2.2.2.2.1]
  have hnsr : ∀ x ∈ tcs.map (·.name), g.names ≤ x ∧ x < g4.names := by
    intro x hx
    rw [hns, List.mem_range'_1] at hx
    have hfi : fi.1.names = g.names + 1 := by
      have : fi.1.names = g1.names := by
        show (g1.foldedInst functor).1.names = _
        cases functor <;> rfl
      rw [this, freshInst_names, hnf.2.2.2.2.2.1]
    rw [hfi] at hx
    refine ⟨Nat.le_trans (Nat.le_succ _) hx.1, Nat.lt_of_lt_of_le hx.2 ?_⟩
    rw [← hg3']
    exact x34.names
  have hdsym : functor = false → g4.symNames d.sym = some g.names := by
    intro h
    rw [x34.sym d.sym (by rw [h]; simpa using ⟨by simpa using hdc, hdv⟩), e03.sym d.sym hdv]
    simp only [n, h]
    exact setAt_eq
  have hdsym' : functor = true → g4.symNames d.sym = g.symNames d.sym := fun h => x04.sym d.sym (by rw [h]; simpa using hdv)
  have hfold : functor = false → g4.foldedNames = g.foldedNames := by
    intro h
    rw [k2, e03.folded]
    simp only [n, h]
    rfl
  have htc : ∀ x, x < k → tc x = g4.typeCtors x := by
    intro x hx
    cases hfun : functor with
    | false =>
      have : other = none := by
        simp only [other, hfun, Bool.false_eq_true, if_false]
        rw [hfold hfun]
        exact hoF hfun
      simp only [tc, this]
    | true =>
      obtain ⟨o, ho, hko, -⟩ := hoT hfun
      have : other = some o := by
        simp only [other, hfun, if_true]
        rw [hdsym' hfun]
        exact ho
      simp only [tc, this]
      exact setAt_ne fun e => absurd hx (by rw [e]; exact Nat.not_lt.mpr hko)
  refine ⟨_, tcs.map (·.name), cs, hrun, hlen.symm, by rw [hns]; exact List.nodup_range', hnsr, ?_, ?_, ?_, ?_, ?_, ?_, ?_⟩
  · refine ⟨x04.names, x04.sym, x04.ty, x04.folded, x04.fields, x04.ctors, fun x hx => ?_⟩
    show setAt tc n.2 cs x = _
    rw [setAt_ne fun e => absurd hx (by rw [e, hnf.2.2.2.2.1]; exact Nat.not_lt.mpr hkn), htc x hx]
    exact x04.typeCtors x hx
  · exact k1.trans (e03.fields.trans hnf.1)
  · exact (x34.ctors d.sym hdc).trans (by rw [e03.ctors, hnf.2.2.1])
  · exact ⟨⟨n.2, vs ++ fi.2, tcs⟩, by show g4.types ++ _ = _; rw [k4, e03.types, hnf.2.2.2.2.2.2], rfl⟩
  · intro p hp
    obtain ⟨m, h⟩ := hm p hp
    refine ⟨m, ?_⟩
    rw [e03.ctors, hnf.2.2.1] at h
    exact h
  · intro h
    refine ⟨(hT h).trans (e03.defs.trans hnf.2.2.2.1), ?_, fun o ho => ⟨?_, hcs⟩⟩
    · show (g4.foldedNames d.sym).isSome = true
      rw [k2, e03.folded]
      simp only [n, h, if_true]
      rw [setAt_eq]
      rfl
    · obtain ⟨o', ho', -, hlt⟩ := hoT h
      rw [ho] at ho'
      cases ho'
      show setAt tc n.2 cs o = _
      rw [setAt_ne (fun e => absurd hlt (by rw [e, hnf.2.2.2.2.1]; exact Nat.lt_irrefl _))]
      have : other = some o := by
        simp only [other, h, if_true]
        rw [hdsym' h]
        exact ho
      simp only [tc, this]
      exact setAt_eq
  · intro h
    refine ⟨hfold h, hdsym h, ?_, ?_⟩
    · refine Nat.lt_of_lt_of_le ?_ x34.names
      rw [hg3', Nat.add_assoc]
      exact Nat.lt_add_of_pos_right (by simp +arith)
    · obtain ⟨hsn, ds, hds, hex, hcd, hcnm, hok⟩ := hF h
      refine ⟨hsn, ds, by show g4.defs = _; rw [hds, e03.defs, hnf.2.2.2.1], hex, hcd.mono (Nat.le_trans hn1.names e03.names), hcnm, ?_⟩
      intro M Δ' F d' hd' hdv' hc hr Γ ρ η hval hvn'
      have e1 : ExtT k [d.sym] [] [] g n.1 := by
        have := extT_genName k g d.sym
        simp only [n, h]
        exact this
      have hval3 : ValsOK M Δ' [] η Γ g3 ρ := (hval.extT e1 (fun b hb => hvn' b (by simp at hb; simp [hb]))).ext e03 fun b hb => hvn' b (by simp [hb])
      refine (hok M Δ' F d' hd' hdv' hc hr Γ ρ η hval3 (fun b hb => hvn' b (by simp [hb]))).imp fun ρ' h' => ?_
      intro s sch hs
      obtain ⟨a1, a2, a3, k, w, a4, a5, a6, a7⟩ := h' s sch hs
      exact ⟨a1, a2, a3, k, w, a4, a5, a6, a7⟩

end Tic.Front
