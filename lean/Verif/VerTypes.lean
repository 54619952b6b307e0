import Verif.VerGen
import Verif.PropVerify
import Verif.GenItems
/-
Verifying generated programs: type definitions.
-/
namespace Tic.Front
open Tic.Unify (Symbol IrTy)
open Tic.Core

/-- Entering type variables that the generator has for `vars`. -/
theorem VScope.typesAt {Δ vs Γ g st vars h' ws} (h : VScope Δ vs Γ g st) (he : Ext vars g h') (hws : mapOpt h'.tyVars vars = some ws)
    (hv : ∀ x ∈ vars, Γ.find x = none ∧ declOf Δ x = none ∧ x ∉ vs) (hf : ∀ w ∈ ws, w ∉ st.definedTy) : VScope Δ (vars ++ vs) Γ h' (st.withTys ws) := by
  have h1 := h.move he hv (withTys_move hf) (withTys_pre h.pre)
  obtain ⟨-, -, -, -, -, -, h7⟩ := withTys_spec ws st
  refine ⟨h1.pre, h1.gen, fun v hvs => ?_, h1.decl, fun s sch hs => ?_⟩
  · by_cases hx : v ∈ vars
    · obtain ⟨w, hw, e⟩ := mapOpt_get hws v hx
      exact ⟨(hv v hx).2.1, w, e, (h7 w).mpr (.inl hw)⟩
    · exact h1.vars v ((List.mem_append.mp hvs).resolve_left hx)
  · obtain ⟨n, T, e1, e2, e3, e4⟩ := h1.ctx s sch hs
    exact ⟨n, T, e1, e2, e3, e4.move (.refl h1.gen fun v hv => (h1.scope.vars v hv).1) (fun v hv => by simp [hv]) (.refl _)⟩

theorem enterTys_withTys : ∀ {ws : List TyVar} {st : VSt}, ws.Nodup → (∀ w ∈ ws, w ∉ st.definedTy) → st.enterTys ws = some (st.withTys ws)
  | [], st, _, _ => rfl
  | w :: ws, st, hn, hf => by
    have hn := List.nodup_cons.mp hn
    simp only [VSt.enterTys, VSt.enterTy, if_neg (hf w (by simp)), Option.bind_some, VSt.withTys]
    refine enterTys_withTys hn.2 fun x hx => ?_
    simp only [List.mem_cons, not_or]
    exact ⟨fun (e : x = w) => hn.1 (e ▸ hx), hf x (by simp [hx])⟩

theorem exitTys_some : ∀ {ws : List TyVar} {st : VSt}, ws.Nodup → (∀ w ∈ ws, w ∈ st.inScopeTy) → ∃ st', st.exitTys ws = some st'
  | [], st, _, _ => ⟨st, rfl⟩
  | w :: ws, st, hn, h => by
    have hn := List.nodup_cons.mp hn
    obtain ⟨st', h1⟩ := exitTys_some (ws := ws) (st := { st with inScopeTy := st.inScopeTy.filter (fun v => v != w) }) hn.2 fun x hx => by
      simp only [List.mem_filter, bne_iff_ne]
      exact ⟨h x (by simp [hx]), fun (e : x = w) => hn.1 (e ▸ hx)⟩
    exact ⟨st', by simp only [VSt.exitTys, VSt.exitTy, if_pos (h w (by simp)), Option.bind_some]; exact h1⟩

theorem checkTys_fields {Δ vars Γ h st rty} (hs : VScope Δ vars Γ h st) (hr : checkTy st rty = some st) : ∀ {fs : List Field} {ts}, FieldsOK Δ vars fs →
    mapOpt (genField h rty) fs = some ts → checkTys st ts = some st
  | [], ts, _, h => by simp only [mapOpt, Option.some.injEq] at h; subst h; rfl
  | f :: fs, ts, hf, h => by
    simp only [mapOpt, Option.bind_eq_some_iff, Option.map_eq_some_iff] at h
    obtain ⟨t, h1, ts, h2, rfl⟩ := h
    have h3 : checkTy st t = some st := by
      cases f with
      | rec_ => simp only [genField, Option.some.injEq] at h1; subst h1; exact hr
      | ty u => exact checkTy_gen hs (hf u (by simp)) h1
    simp only [checkTys, h3, Option.bind_some]
    exact checkTys_fields hs hr (fun t ht => hf t (by simp [ht])) h2

mutual
/-- Types depend only on three of the generator's maps. -/
theorem genTy_same {g g' : Gen} (h1 : g'.tyVars = g.tyVars) (h2 : g'.symNames = g.symNames) (h3 : g'.foldedNames = g.foldedNames) : ∀ t, genTy g' t = genTy g t
  | .int | .bool | .str | .error | .infer => by simp [genTy]
  | .named s args => by simp only [genTy, h1, h2, genTys_same h1 h2 h3 args]
  | .fn a b => by simp only [genTy, genTy_same h1 h2 h3 a, genTy_same h1 h2 h3 b]
  | .folded (.named s args) to => by simp only [genTy, h1, h3, genTys_same h1 h2 h3 args, genTy_same h1 h2 h3 to]
  | .folded .int _ | .folded .bool _ | .folded .str _ | .folded .error _ | .folded .infer _ => by simp [genTy]
  | .folded (.fn a b) _ => by simp only [genTy, genTy_same h1 h2 h3 a, genTy_same h1 h2 h3 b]
  | .folded (.folded a b) _ => by
    have := genTy_same h1 h2 h3 (.folded a b)
    simp only [genTy] at this ⊢
    exact this
theorem genTys_same {g g' : Gen} (h1 : g'.tyVars = g.tyVars) (h2 : g'.symNames = g.symNames) (h3 : g'.foldedNames = g.foldedNames) : ∀ ts, genTys g' ts = genTys g ts
  | [] => rfl
  | t :: ts => by simp only [genTys, genTy_same h1 h2 h3 t, genTys_same h1 h2 h3 ts]
end

theorem genField_same {g g' : Gen} {rty : Ty} (h1 : g'.tyVars = g.tyVars) (h2 : g'.symNames = g.symNames) (h3 : g'.foldedNames = g.foldedNames) :
    genField g' rty = genField g rty := by
  funext f
  cases f with
  | rec_ => rfl
  | ty t => exact genTy_same h1 h2 h3 t

theorem genField_fresh {g : Gen} {rty : Ty} : genField g.fresh.1 rty = genField g rty := genField_same rfl rfl rfl

/-- What checking the cases of a type leaves behind. -/
structure CasesV (L : Nat) (rty : Ty) (ty : Name) (ws : List TyVar) (g g' : Gen) (cs : List (Symbol × List Field)) (tcs : List TyCase) (st st' : VSt) : Prop where
  check : checkTyCases L ty ws st tcs = some st'
  used : Used g g' st st'
  move : SMove st st'
  pre : Pre st'
  scopeTy : st'.inScopeTy = st.inScopeTy
  kinds : st'.kinds = st.kinds
  definedTy : st'.definedTy = st.definedTy
  types : st'.types = st.types
  sub : ∀ x ∈ st.defined, x ∈ st'.defined
  keys : ∀ n k, vget n st'.ctors = some k → n ∈ st'.defined
  ctors : ∀ (i : Nat) c, cs[i]? = some c → ∃ ts tc, tcs[i]? = some tc ∧ mapOpt (genField g rty) c.2 = some ts ∧ vget tc.name st'.ctors = some ⟨ty, ws, ts⟩

theorem check_tyCases {Δ vars L rty ty ws} : ∀ {cs : List (Symbol × List Field)} {g g' : Gen} {tcs : List TyCase} {st : VSt}, VScope Δ vars [] g st →
    (∀ st1, SMove st st1 → checkTy st1 rty = some st1) → (∀ c ∈ cs, g.ctorFields c.1 = some c.2 ∧ FieldsOK Δ vars c.2) → genTyCases rty g (cs.map (·.1)) = some (g', tcs) →
    Room L g g' st → (∀ n k, vget n st.ctors = some k → n ∈ st.defined) → Le g g' ∧ ∃ st', CasesV L rty ty ws g g' cs tcs st st'
  | [], g, g', tcs, st, hs, _, _, h, _, hk => by
    simp only [List.map_nil, genTyCases] at h
    cases h
    exact ⟨.refl _, st, rfl, .same, .refl _, hs.pre, rfl, rfl, rfl, rfl, fun _ h => h, hk, by simp⟩
  | c :: cs, g, g', tcs, st, hs, hr, hf, h, hrm, hk => by
    simp only [List.map_cons, genTyCases, Option.bind_eq_some_iff, Option.map_eq_some_iff] at h
    obtain ⟨fields, h1, ts, h2, ⟨g2, tcs2⟩, h3, h⟩ := h
    cases h
    have h1' : g.ctorFields c.1 = some fields := h1
    rw [(hf c (by simp)).1] at h1'
    cases h1'
    have hle : Le g.fresh.1 g2 := by
      have : ∀ {cs g g' tcs}, genTyCases rty g cs = some (g', tcs) → Le g g' := by
        intro cs
        induction cs with
        | nil => intro g g' tcs h; simp only [genTyCases] at h; cases h; exact .refl _
        | cons c cs ih =>
          intro g g' tcs h
          simp only [genTyCases, Option.bind_eq_some_iff, Option.map_eq_some_iff] at h
          obtain ⟨_, _, _, _, ⟨g2, tcs2⟩, h3, h⟩ := h
          cases h
          exact (le_fresh g).trans (ih h3)
      exact this h3
    have l0 := le_fresh g
    have hlt : (g.names : Nat) < g.fresh.1.names := Nat.lt_succ_self _
    have hn : g.names ∉ st.defined := hrm.names _ (Nat.le_refl _) (Nat.lt_of_lt_of_le hlt hle.names)
    have ltL : g.names < L := Nat.lt_of_lt_of_le hlt (Nat.le_trans hle.names hrm.limit)
    have m1 := enter_move (st := st) (n := g.names)
    have s1 := hs.move (Ext.refl [] g) (by simp) m1 (enter_pre hs.pre)
    have hck := checkTys_fields s1 (hr _ m1) (hf c (by simp)).2 (by rw [← genField_fresh]; exact h2)
    let st1 : VSt := { st with defined := g.names :: st.defined, inScope := g.names :: st.inScope, ctors := (g.names, ⟨ty, ws, ts⟩) :: st.ctors }
    have m2 : SMove st st1 := by
      refine ⟨m1.scope, m1.types, m1.kinds, fun n k hnk => ?_, m1.tys, m1.scopeTy, m1.back⟩
      show vget n ((g.names, _) :: st.ctors) = some k
      rw [vget_cons, if_neg]
      · exact hnk
      · rintro rfl; exact hn (hk _ _ hnk)
    have p1 : Pre st1 := ⟨(enter_pre (n := g.names) hs.pre).sub, (enter_pre (n := g.names) hs.pre).subTy⟩
    have hsub1 : ∀ x ∈ st.defined, x ∈ st1.defined := fun x hx => by simp [st1, hx]
    have s2 := hs.move (ext_fresh g) (by simp) m2 p1
    have u1 : Used g g.fresh.1 st st1 := by
      refine ⟨fun x hx => ?_, fun x hx => .inl hx⟩
      simp only [st1, List.mem_cons] at hx
      rcases hx with rfl | hx
      · exact .inr ⟨Nat.le_refl _, hlt⟩
      · exact .inl hx
    obtain ⟨-, st', C⟩ := check_tyCases (ty := ty) (ws := ws) (cs := cs) (st := st1) s2 (fun x hx => hr x (m2.trans hsub1 hx)) (fun c' hc => hf c' (by simp [hc])) h3 (hrm.right l0 u1)
      (fun n k hnk => by
        simp only [st1, vget_cons] at hnk
        split at hnk
        · rename_i e; simp [st1, ← e]
        · simp only [st1, List.mem_cons]; exact .inr (hk n k hnk))
    refine ⟨l0.trans hle, st', ?_, u1.trans l0 hle C.used, m2.trans hsub1 C.move, C.pre, C.scopeTy, C.kinds, C.definedTy, C.types, fun x hx => C.sub x (hsub1 x hx), C.keys, ?_⟩
    · simp only [checkTyCases, checkTyCase, Gen.fresh, enter_some ltL hn, Option.bind_some, hck]
      exact C.check
    · intro i c' hi
      cases i with
      | zero =>
        simp only [List.getElem?_cons_zero, Option.some.injEq] at hi
        subst hi
        refine ⟨ts, ⟨g.names, ts⟩, rfl, by rw [← genField_fresh]; exact h2, C.move.ctors _ _ ?_⟩
        simp [st1, vget_cons]
      | succ i =>
        obtain ⟨ts', tc, e1, e2, e3⟩ := C.ctors i c' (by simpa using hi)
        exact ⟨ts', tc, by simpa using e1, by rw [← genField_fresh]; exact e2, e3⟩

/-! ### The parts of a type -/

/-- What may change while types are generated. -/
structure Keep (ss vs : List Symbol) (g g' : Gen) : Prop where
  le : Le g g'
  sym : ∀ s, s ∉ ss → g'.symNames s = g.symNames s
  ty : ∀ s, s ∉ vs → g'.tyVars s = g.tyVars s
  folded : g'.foldedNames = g.foldedNames
  fields : g'.ctorFields = g.ctorFields
  types : g'.types = g.types

theorem Keep.refl (ss vs : List Symbol) (g : Gen) : Keep ss vs g g := ⟨.refl _, fun _ _ => rfl, fun _ _ => rfl, rfl, rfl, rfl⟩

theorem Keep.trans {ss vs : List Symbol} {g g' g'' : Gen} (h : Keep ss vs g g') (h' : Keep ss vs g' g'') : Keep ss vs g g'' :=
  ⟨h.le.trans h'.le, fun s hs => (h'.sym s hs).trans (h.sym s hs), fun s hs => (h'.ty s hs).trans (h.ty s hs), h'.folded.trans h.folded, h'.fields.trans h.fields, h'.types.trans h.types⟩

theorem Ext.keep {bs ss vs : List Symbol} {g g' : Gen} (h : Ext bs g g') (l : Le g g') (h1 : ∀ b ∈ bs, b ∈ ss) (h2 : ∀ b ∈ bs, b ∈ vs) : Keep ss vs g g' :=
  ⟨l, fun s hs => h.sym s fun hx => hs (h1 s hx), fun s hs => h.ty s fun hx => hs (h2 s hx), h.folded, h.fields, h.types⟩

theorem le_foldedInst (g : Gen) (functor : Bool) : Le g (g.foldedInst functor).1 := by
  cases functor
  · exact .refl _
  · exact ⟨Nat.le_refl _, Nat.le_succ _⟩

theorem le_genTyCases {rty : Ty} : ∀ {cs g g' tcs}, genTyCases rty g cs = some (g', tcs) → Le g g'
  | [], g, g', tcs, h => by simp only [genTyCases] at h; cases h; exact .refl _
  | c :: cs, g, g', tcs, h => by
    simp only [genTyCases, Option.bind_eq_some_iff, Option.map_eq_some_iff] at h
    obtain ⟨_, _, _, _, ⟨g2, tcs2⟩, h3, h⟩ := h
    cases h
    exact (le_fresh g).trans (le_genTyCases h3)

theorem ext_genTyCases {rty : Ty} : ∀ {cs g g' tcs}, genTyCases rty g cs = some (g', tcs) → Ext [] g g'
  | [], g, g', tcs, h => by simp only [genTyCases] at h; cases h; exact .refl _ _
  | c :: cs, g, g', tcs, h => by
    simp only [genTyCases, Option.bind_eq_some_iff, Option.map_eq_some_iff] at h
    obtain ⟨_, _, _, _, ⟨g2, tcs2⟩, h3, h⟩ := h
    cases h
    exact (ext_fresh g).trans (ext_genTyCases h3)

/-- The definition of a constructor function, from the state `g` of the generator to `g'`. -/
structure CtorFnV (tyName : Name) (vars : List Symbol) (g g' : Gen) (fields : List Field) (cn : Name) (e : ValueDef) (ga gc : Gen) (ps : List Name)
    (vs vs' : List TyVar) (ts ts' : List Ty) : Prop where
  name : e.name = g.names
  lt : (g.names : Nat) < g'.names
  tyVars : mapOpt ga.tyVars vars = some vs
  tyVars' : mapOpt gc.tyVars vars = some vs'
  nodup : (vs' ++ vs).Nodup
  range : ∀ a ∈ vs' ++ vs, g.tys ≤ a ∧ a < g'.tys
  params : ps.Nodup ∧ ps.length = fields.length ∧ ∀ p ∈ ps, g.names < p ∧ p < g'.names
  fieldTys : mapOpt (genField ga (.named tyName (vs.map .var))) fields = some ts
  fieldTys' : mapOpt (genField gc (.named tyName (vs'.map .var))) fields = some ts'
  value : e.value = pis vs (lams (ps.zip ts) (.con cn (vs.map .var) (ps.map .name)))
  ty : e.ty = absTys vs' (ts'.foldr (fun t u => .fn [t] u) (.named tyName (vs'.map .var)))

theorem genCtorFn_inv {functor : Bool} {tyName : Name} {vars : List Symbol} {g g' : Gen} {c : Symbol} {cn : Name} (hn : vars.Nodup)
    (h : genCtorFn functor tyName vars g c cn = some g') : Keep (c :: vars) vars g g' ∧ (functor = true → g'.defs = g.defs) ∧
      (functor = false → ∃ fields e ga gc ps vs vs' ts ts', g.ctorFields c = some fields ∧ g'.defs = g.defs ++ [e] ∧ Keep (c :: vars) vars g ga ∧ Keep (c :: vars) vars g gc ∧
        CtorFnV tyName vars g g' fields cn e ga gc ps vs vs' ts ts') := by
  let n : Gen × Name := if functor then g.fresh else g.genName c
  have kn : Keep (c :: vars) vars g n.1 := by
    cases functor
    · exact ⟨le_genName g c, fun s hs => (ext_genName g c).sym s (by simp only [List.mem_cons, not_or] at hs; simp [hs.1]), fun s hs => rfl, rfl, rfl, rfl⟩
    · exact (ext_fresh g).keep (le_fresh g) (by simp) (by simp)
  have hnd : n.1.defs = g.defs ∧ n.2 = g.names ∧ n.1.names = g.names + 1 ∧ n.1.tys = g.tys := by cases functor <;> exact ⟨rfl, rfl, rfl, rfl⟩
  have h0 : ((n.1.ctorFields c).bind fun fields =>
      (mapOpt ((((n.1.foldedInst functor).1.freshInst vars).freshes fields.length).1).tyVars vars).bind fun vs =>
      (mapOpt (genField (((n.1.foldedInst functor).1.freshInst vars).freshes fields.length).1 (recFieldTy tyName vs (n.1.foldedInst functor).2)) fields).bind fun ts =>
      (mapOpt (((((n.1.foldedInst functor).1.freshInst vars).freshes fields.length).1.foldedInst functor).1.freshInst vars).tyVars vars).bind fun vs' =>
      (mapOpt (genField (((((n.1.foldedInst functor).1.freshInst vars).freshes fields.length).1.foldedInst functor).1.freshInst vars)
        (recFieldTy tyName vs' ((((n.1.foldedInst functor).1.freshInst vars).freshes fields.length).1.foldedInst functor).2)) fields).map fun ts' =>
        ({ ((((n.1.foldedInst functor).1.freshInst vars).freshes fields.length).1.foldedInst functor).1.freshInst vars with
          defs := if functor then (((((n.1.foldedInst functor).1.freshInst vars).freshes fields.length).1.foldedInst functor).1.freshInst vars).defs else
            (((((n.1.foldedInst functor).1.freshInst vars).freshes fields.length).1.foldedInst functor).1.freshInst vars).defs ++ [⟨n.2, none,
            absTys (vs' ++ ((((n.1.foldedInst functor).1.freshInst vars).freshes fields.length).1.foldedInst functor).2)
              (ts'.foldr (fun t u => .fn [t] u) (.named tyName ((vs' ++ ((((n.1.foldedInst functor).1.freshInst vars).freshes fields.length).1.foldedInst functor).2).map .var))),
            pis (vs ++ (n.1.foldedInst functor).2) (((((n.1.foldedInst functor).1.freshInst vars).freshes fields.length).2.zip ts).foldr (fun p e => .lam [p] e)
              (.con cn ((vs ++ (n.1.foldedInst functor).2).map .var) ((((n.1.foldedInst functor).1.freshInst vars).freshes fields.length).2.map .name)))⟩]
          ctors := setAt (((((n.1.foldedInst functor).1.freshInst vars).freshes fields.length).1.foldedInst functor).1.freshInst vars).ctors c
            (newCtor functor ((((((n.1.foldedInst functor).1.freshInst vars).freshes fields.length).1.foldedInst functor).1.freshInst vars).ctors c) c cn n.2) } : Gen)) = some g' := h
  simp only [Option.bind_eq_some_iff, Option.map_eq_some_iff] at h0
  obtain ⟨fields, h1, vs, h2, ts, h3, vs', h4, ts', h5, h6⟩ := h0
  let g2 := (n.1.foldedInst functor).1
  let g3 := g2.freshInst vars
  let g4 := (g3.freshes fields.length).1
  let g5 := (g4.foldedInst functor).1
  let g6 := g5.freshInst vars
  have k2 : Keep (c :: vars) vars n.1 g2 := (ext_foldedInst _ _).keep (le_foldedInst _ _) (by simp) (by simp)
  have k3 : Keep (c :: vars) vars g2 g3 := (ext_freshInst _ _).keep (le_freshInst _ _) (by simp +contextual) (by simp +contextual)
  have k4 : Keep (c :: vars) vars g3 g4 := (ext_freshes _ _).keep (le_freshes _ _) (by simp) (by simp)
  have k5 : Keep (c :: vars) vars g4 g5 := (ext_foldedInst _ _).keep (le_foldedInst _ _) (by simp) (by simp)
  have k6 : Keep (c :: vars) vars g5 g6 := (ext_freshInst _ _).keep (le_freshInst _ _) (by simp +contextual) (by simp +contextual)
  have k04 := ((kn.trans k2).trans k3).trans k4
  have k06 := (k04.trans k5).trans k6
  have hd6 : g6.defs = g.defs := by
    rw [(ext_freshInst vars g5).defs, (ext_foldedInst g4 functor).defs, (ext_freshes fields.length g3).defs, (ext_freshInst vars g2).defs, (ext_foldedInst n.1 functor).defs, hnd.1]
  refine ⟨?_, ?_, ?_⟩
  · rw [← h6]
    exact ⟨⟨k06.le.names, k06.le.tys⟩, k06.sym, k06.ty, k06.folded, k06.fields, k06.types⟩
  · intro hf
    rw [← h6]
    show (if functor then g6.defs else _) = _
    rw [if_pos hf, hd6]
  · intro hf
    refine ⟨fields, ⟨g.names, none, absTys vs' (ts'.foldr (fun t u => .fn [t] u) (.named tyName (vs'.map .var))),
      pis vs (lams ((g3.freshes fields.length).2.zip ts) (.con cn (vs.map .var) ((g3.freshes fields.length).2.map .name)))⟩, g4, g6, (g3.freshes fields.length).2, vs, vs', ts, ts',
      by rw [← kn.fields]; exact h1, ?_, k04, k06, ?_⟩
    · rw [← h6]
      subst hf
      show g6.defs ++ _ = _
      rw [hd6]
      simp only [Gen.foldedInst, Bool.false_eq_true, if_false, List.append_nil, lams, hnd.2.1]
      rfl
    · have e2 : g2 = n.1 := by simp only [g2, hf]; rfl
      have e5 : g5 = g4 := by simp only [g5, hf]; rfl
      have hvs : vs = List.range' g.tys vars.length := by
        have h7 := (freshInst_vars (g := g2) hn).1
        have h2' : mapOpt g4.tyVars vars = some vs := h2
        have : g4.tyVars = g3.tyVars := funext fun s => (ext_freshes fields.length g3).ty s (by simp)
        rw [this] at h2'
        rw [show mapOpt g3.tyVars vars = some _ from h7] at h2'
        cases h2'
        rw [e2, hnd.2.2.2]
      have ht3 : g3.tys = g.tys + vars.length := by rw [(freshInst_vars (g := g2) hn).2, e2, hnd.2.2.2]
      have ht4 : g4.tys = g.tys + vars.length := by
        rw [← ht3]
        have : ∀ (k : Nat) (g : Gen), (g.freshes k).1.tys = g.tys := by
          intro k; induction k with
          | zero => intro g; rfl
          | succ k ih => intro g; exact ih g.fresh.1
        exact this _ _
      have hvs' : vs' = List.range' (g.tys + vars.length) vars.length := by
        have h7 := (freshInst_vars (g := g5) hn).1
        rw [show mapOpt g6.tyVars vars = some _ from h7] at h4
        cases h4
        rw [e5, ht4]
      have ht6 : g'.tys = g.tys + vars.length + vars.length := by
        rw [← h6]
        show g6.tys = _
        rw [(freshInst_vars (g := g5) hn).2, e5, ht4]
      have hn3 : g3.names = g.names + 1 := by rw [freshInst_names, e2, hnd.2.2.1]
      have hn' : g'.names = g.names + 1 + fields.length := by
        rw [← h6]
        show g6.names = _
        rw [freshInst_names, e5, freshes_names, hn3]
      refine ⟨rfl, ?_, h2, h4, ?_, ?_, ⟨?_, ?_, ?_⟩, ?_, ?_, rfl, rfl⟩
      · rw [hn']; exact Nat.lt_of_lt_of_le (Nat.lt_succ_self _) (Nat.le_add_right _ _)
      · rw [hvs, hvs', List.nodup_append]
        refine ⟨List.nodup_range', List.nodup_range', fun a ha b hb => ?_⟩
        simp only [List.mem_range'_1] at ha hb
        intro e
        subst e
        exact Nat.not_le_of_lt hb.2 ha.1
      · intro a ha
        rw [hvs, hvs'] at ha
        simp only [List.mem_append, List.mem_range'_1] at ha
        rw [ht6]
        rcases ha with ha | ha
        · exact ⟨Nat.le_trans (Nat.le_add_right _ _) ha.1, ha.2⟩
        · exact ⟨ha.1, Nat.lt_of_lt_of_le ha.2 (Nat.le_add_right _ _)⟩
      · rw [freshes_range]; exact List.nodup_range'
      · rw [freshes_range]; simp
      · intro p hp
        rw [freshes_range, List.mem_range'_1, hn3] at hp
        rw [hn']
        exact ⟨hp.1, hp.2⟩
      · subst hf
        exact h3
      · subst hf
        exact h5

theorem Keep.weaken {ss vs ss' vs' : List Symbol} {g g' : Gen} (h : Keep ss vs g g') (h1 : ∀ s ∈ ss, s ∈ ss') (h2 : ∀ s ∈ vs, s ∈ vs') : Keep ss' vs' g g' :=
  ⟨h.le, fun s hs => h.sym s fun hx => hs (h1 s hx), fun s hs => h.ty s fun hx => hs (h2 s hx), h.folded, h.fields, h.types⟩

/-- The definitions of all constructor functions of a type. -/
inductive CtorFnsV (tyName : Name) (vars ss : List Symbol) : Gen → Gen → List (Symbol × List Field) → List Name → List ValueDef → Prop
  | nil {g} : CtorFnsV tyName vars ss g g [] [] []
  | cons {g g1 g' ga gc : Gen} {c cs cn ns e ds ps vs vs' ts ts'} : Keep ss vars g ga → Keep ss vars g gc → Keep ss vars g g1 →
      CtorFnV tyName vars g g1 c.2 cn e ga gc ps vs vs' ts ts' → CtorFnsV tyName vars ss g1 g' cs ns ds → CtorFnsV tyName vars ss g g' (c :: cs) (cn :: ns) (e :: ds)

theorem genCtorFns_inv {functor : Bool} {tyName : Name} {vars ss : List Symbol} (hn : vars.Nodup) (hv : ∀ v ∈ vars, v ∈ ss) : ∀ {cs : List (Symbol × List Field)} {ns : List Name} {g g' : Gen},
    cs.length = ns.length → (∀ c ∈ cs, c.1 ∈ ss ∧ g.ctorFields c.1 = some c.2) → genCtorFns functor tyName vars g ((cs.map (·.1)).zip ns) = some g' →
    Keep ss vars g g' ∧ (functor = true → g'.defs = g.defs) ∧ (functor = false → ∃ ds, g'.defs = g.defs ++ ds ∧ CtorFnsV tyName vars ss g g' cs ns ds)
  | [], [], g, g', _, _, h => by
    simp only [List.map_nil, List.zip_nil_left, genCtorFns, Option.some.injEq] at h
    subst h
    exact ⟨.refl _ _ _, fun _ => rfl, fun _ => ⟨[], by simp, .nil⟩⟩
  | c :: cs, cn :: ns, g, g', hl, hf, h => by
    simp only [List.map_cons, List.zip_cons_cons, genCtorFns, Option.bind_eq_some_iff] at h
    obtain ⟨g1, h1, h2⟩ := h
    obtain ⟨k1, d1, v1⟩ := genCtorFn_inv hn h1
    have hw : ∀ s ∈ c.1 :: vars, s ∈ ss := by
      intro s hs
      rcases List.mem_cons.mp hs with rfl | hs
      · exact (hf c (by simp)).1
      · exact hv s hs
    have k1' := k1.weaken hw (fun _ h => h)
    obtain ⟨k2, d2, v2⟩ := genCtorFns_inv hn hv (by simpa using hl) (fun c' hc => ⟨(hf c' (by simp [hc])).1, by rw [k1.fields]; exact (hf c' (by simp [hc])).2⟩) h2
    refine ⟨k1'.trans k2, fun hF => (d2 hF).trans (d1 hF), fun hF => ?_⟩
    obtain ⟨fields, e, ga, gc, ps, vs, vs', ts, ts', e1, e2, e3, e4, e5⟩ := v1 hF
    obtain ⟨ds, e6, e7⟩ := v2 hF
    rw [(hf c (by simp)).2] at e1
    cases e1
    exact ⟨e :: ds, by rw [e6, e2]; simp, .cons (e3.weaken hw fun _ h => h) (e4.weaken hw fun _ h => h) k1' e5 e7⟩

theorem CtorFnsV.le {tyName : Name} {vars ss g g' cs ns ds} (h : CtorFnsV tyName vars ss g g' cs ns ds) : Le g g' := by
  induction h with
  | nil => exact .refl _
  | cons _ _ h _ _ ih => exact h.le.trans ih

/-- The generator with the name of the type. -/
def Gen.tyName (g : Gen) (functor : Bool) (s : Symbol) : Gen :=
  if functor then { g.fresh.1 with foldedNames := setAt g.foldedNames s g.names } else (g.genName s).1

theorem genTypeItem_inv {functor : Bool} {g g' : Gen} {d : TypeDecl} (h : genTypeItem functor g d = some g') :
    ∃ vs gm tcs g4 tc, mapOpt ((g.tyName functor d.sym).freshInst d.vars).tyVars d.vars = some vs ∧
      genTyCases (recFieldTy g.names vs (((g.tyName functor d.sym).freshInst d.vars).foldedInst functor).2) (((g.tyName functor d.sym).freshInst d.vars).foldedInst functor).1 (d.ctors.map (·.1)) = some (gm, tcs) ∧
      genCtorFns functor g.names d.vars gm ((d.ctors.map (·.1)).zip (tcs.map (·.name))) = some g4 ∧
      g' = { g4 with typeCtors := tc, types := g4.types ++ [⟨g.names, vs ++ (((g.tyName functor d.sym).freshInst d.vars).foldedInst functor).2, tcs⟩] } := by
  cases functor
  all_goals
    simp only [genTypeItem, Option.bind_eq_some_iff, Option.map_eq_some_iff] at h
    obtain ⟨vs, h1, ⟨gm, tcs⟩, h2, g4, h3, cs, h4, h5⟩ := h
    exact ⟨vs, gm, tcs, g4, _, h1, h2, h3, h5.symm⟩

theorem Older.symm0 {Δ : List TypeDecl} {g g' : Gen} (h : Older Δ [] g g') : Older Δ [] g' g :=
  ⟨by simp, fun s d hd => ⟨(h.decl s d hd).2.1, (h.decl s d hd).1, (h.decl s d hd).2.2.1.symm, (h.decl s d hd).2.2.2.symm⟩⟩

theorem Older.keep {Δ : List TypeDecl} {ss vs : List Symbol} {g g' : Gen} (hg : ∀ s d, declOf Δ s = some d → g.tyVars s = none) (h : Keep ss vs g g') (h1 : ∀ s ∈ ss, declOf Δ s = none) (h2 : ∀ s ∈ vs, declOf Δ s = none) : Older Δ [] g g' := by
  refine ⟨by simp, fun s d hd => ?_⟩
  have n1 : s ∉ ss := fun hs => by rw [h1 s hs] at hd; cases hd
  have n2 : s ∉ vs := fun hs => by rw [h2 s hs] at hd; cases hd
  exact ⟨hg s d hd, by rw [h.ty s n2]; exact hg s d hd, (h.sym s n1).symm, by rw [h.folded]⟩

theorem VScope.shift {Δ g st g' st'} (h : VScope Δ [] [] g st) (ho : Older Δ [] g g') (hg : GenOK Δ g') (hc : ∀ s d, declOf Δ s = some d → ∀ c ∈ d.ctors, g'.ctors c.1 = g.ctors c.1)
    (hm : SMove st st') (hp : Pre st') : VScope Δ [] [] g' st' := by
  refine ⟨hp, hg, by simp, fun s d hd => ?_, fun s sch hs => by cases hs⟩
  obtain ⟨n, m, h1⟩ := h.decl s d hd
  exact ⟨n, m, h1.move (by rw [declOf_sym hd]; exact hd) ho (hc s d hd) hm⟩

theorem tyName_older {Δ : List TypeDecl} {functor : Bool} {g : Gen} {s : Symbol} (hg : GenOK Δ g) (hs : declOf Δ s = none) :
    Older Δ [] g (g.tyName functor s) ∧ GenOK Δ (g.tyName functor s) ∧ (g.tyName functor s).ctors = g.ctors ∧ (g.tyName functor s).ctorFields = g.ctorFields ∧
      (g.tyName functor s).types = g.types ∧ (g.tyName functor s).names = g.names + 1 ∧ (g.tyName functor s).tys = g.tys := by
  have hne : ∀ x d, declOf Δ x = some d → x ≠ s := fun x d hx e => by rw [e, hs] at hx; cases hx
  cases functor
  · refine ⟨.ext hg (by simp) (ext_genName g s) (by simp [hs]), hg.ext (ext_genName g s) (by simp [hs]), rfl, rfl, rfl, rfl, rfl⟩
  · refine ⟨⟨by simp, fun x d hd => ⟨hg.notVar x d hd, hg.notVar x d hd, rfl, (setAt_ne (hne x d hd)).symm⟩⟩, ⟨hg.notVar, fun x d hd => ?_, hg.name, hg.ctor⟩, rfl, rfl, rfl, rfl, rfl⟩
    show (setAt g.foldedNames s g.names x).isSome = true
    rw [setAt_ne (hne x d hd)]
    exact hg.folded x d hd

/-- Only names below the generator's counters are defined. -/
structure Below (g : Gen) (st : VSt) : Prop where
  names : ∀ n ∈ st.defined, n < g.names
  tys : ∀ a ∈ st.definedTy, a < g.tys
  kinds : ∀ n k, vget n st.kinds = some k → n ∈ st.defined
  ctors : ∀ n k, vget n st.ctors = some k → n ∈ st.defined
  top : st.inScopeTy = []

/-- Checking a generated type. -/
structure TypeV (Δ : List TypeDecl) (L : Nat) (functor : Bool) (g gm g' hg : Gen) (d : TypeDecl) (vs fi : List TyVar) (tcs : List TyCase) (st st' : VSt) : Prop where
  types : g'.types = g.types ++ [⟨g.names, vs ++ fi, tcs⟩]
  le : Le g gm
  le' : Le gm g'
  check : checkTyDef L st ⟨g.names, vs ++ fi, tcs⟩ = some st'
  used : Used g gm st st'
  move : SMove st st'
  sub : ∀ x ∈ st.defined, x ∈ st'.defined
  pre : Pre st'
  below : Below gm st'
  scope : g.names ∈ st'.inScope
  kind : vget g.names st'.kinds = some (vs ++ fi).length
  folded : fi = if functor then [hg.tys - 1] else []
  vars : mapOpt hg.tyVars d.vars = some vs
  nodup : (vs ++ fi).Nodup
  gone : ∀ w ∈ vs ++ fi, w ∈ st'.definedTy ∧ w ∉ st'.inScopeTy
  older : Older Δ [] g g' ∧ Older Δ [] hg g'
  ctors : ∀ (i : Nat) c, d.ctors[i]? = some c → ∃ ts tc, tcs[i]? = some tc ∧ mapOpt (genField hg (recFieldTy g.names vs fi)) c.2 = some ts ∧ vget tc.name st'.ctors = some ⟨g.names, vs ++ fi, ts⟩
  foldedName : functor = true → g'.foldedNames d.sym = some g.names
  fns : functor = false → ∃ g4 ds, g4.names = g'.names ∧ g4.tys = g'.tys ∧ g'.defs = g.defs ++ ds ∧ Older Δ [] gm g' ∧ GenOK Δ gm ∧
    CtorFnsV g.names d.vars (d.ctors.map (·.1) ++ d.vars) gm g4 d.ctors (tcs.map (·.name)) ds

theorem withTys_append : ∀ (vs ws : List TyVar) (st : VSt), st.withTys (vs ++ ws) = (st.withTys vs).withTys ws
  | [], _, _ => rfl
  | _ :: vs, ws, _ => withTys_append vs ws _

theorem vget_vars {st : VSt} {ws : List TyVar} (h : ∀ w ∈ ws, w ∈ st.inScopeTy) : checkTys st (ws.map .var) = some st := by
  refine checkTys_all fun t ht => ?_
  obtain ⟨w, hw, rfl⟩ := List.mem_map.mp ht
  simp [checkTy, h w hw]

theorem check_typeItem {Δ : List TypeDecl} {L : Nat} {functor : Bool} {g g' : Gen} {d : TypeDecl} {st : VSt} (hs : VScope Δ [] [] g st) (hb : Below g st)
    (hnd : (d.sym :: (d.vars ++ d.ctors.map (·.1))).Nodup) (hoff : ∀ s ∈ d.sym :: (d.vars ++ d.ctors.map (·.1)), declOf Δ s = none)
    (hf : ∀ c ∈ d.ctors, g.ctorFields c.1 = some c.2 ∧ FieldsOK Δ d.vars c.2) (h : genTypeItem functor g d = some g') (hL : g'.names ≤ L) :
    ∃ gm hg vs fi tcs st', TypeV Δ L functor g gm g' hg d vs fi tcs st st' := by
  obtain ⟨hvn, hcn, hvc⟩ := List.nodup_append.mp (List.nodup_cons.mp hnd).2
  obtain ⟨vs, gm, tcs, g4, tc, h1, h2, h3, h4⟩ := genTypeItem_inv h
  obtain ⟨o1, k1, c1, f1, t1, n1, a1⟩ := tyName_older (functor := functor) hs.gen (hoff d.sym (by simp))
  generalize hgn : g.tyName functor d.sym = gn at *
  have hvoff : ∀ x ∈ d.vars, declOf Δ x = none := fun x hx => hoff x (by simp [hx])
  have evs : vs = List.range' g.tys d.vars.length := by
    rw [(freshInst_vars hvn).1] at h1
    cases h1
    rw [a1]
  have ag1 : (gn.freshInst d.vars).tys = g.tys + d.vars.length := by rw [(freshInst_vars hvn).2, a1]
  have ng1 : (gn.freshInst d.vars).names = g.names + 1 := by rw [freshInst_names, n1]
  have e1 : Ext d.vars gn (gn.freshInst d.vars) := ext_freshInst _ _
  generalize hg1 : gn.freshInst d.vars = g1 at *
  have e2 : Ext [] g1 (g1.foldedInst functor).1 := ext_foldedInst _ _
  have hg2n : (g1.foldedInst functor).1.names = g1.names := by cases functor <;> rfl
  have hfi : (g1.foldedInst functor).2 = if functor then [g1.tys] else [] := by cases functor <;> rfl
  have hfi' : (g1.foldedInst functor).2 = if functor then [(g1.foldedInst functor).1.tys - 1] else [] := by cases functor <;> rfl
  have hlt1 : ∀ a ∈ vs ++ (g1.foldedInst functor).2, g.tys ≤ a ∧ a < (g1.foldedInst functor).1.tys := by
    intro a ha
    rcases List.mem_append.mp ha with ha | ha
    · rw [evs, List.mem_range'_1, ← ag1] at ha
      exact ⟨ha.1, Nat.lt_of_lt_of_le ha.2 (le_foldedInst _ _).tys⟩
    · cases functor
      · simp [Gen.foldedInst] at ha
      · simp only [Gen.foldedInst, if_true, List.mem_singleton] at ha
        subst ha
        refine ⟨?_, Nat.lt_succ_self _⟩
        rw [ag1]; exact Nat.le_add_right _ _
  have hnod : (vs ++ (g1.foldedInst functor).2).Nodup := by
    rw [List.nodup_append]
    refine ⟨by rw [evs]; exact List.nodup_range', by cases functor <;> simp [Gen.foldedInst], fun a ha b hb => ?_⟩
    cases functor
    · simp [Gen.foldedInst] at hb
    · simp only [Gen.foldedInst, if_true, List.mem_singleton] at hb
      rw [evs, List.mem_range'_1, ← ag1] at ha
      rintro rfl
      rw [hb] at ha
      exact Nat.lt_irrefl _ ha.2
  have l12 := le_foldedInst g1 functor
  generalize hgi : (g1.foldedInst functor).1 = hg at *
  generalize hfe : (g1.foldedInst functor).2 = fi at *
  have lcs := le_genTyCases h2
  have ecs := ext_genTyCases h2
  have lg : Le g hg := ⟨by rw [hg2n, ng1]; exact Nat.le_succ _, Nat.le_trans (by rw [ag1]; exact Nat.le_add_right _ _) l12.tys⟩
  -- entering
  let st0 : VSt := { st with defined := g.names :: st.defined, inScope := g.names :: st.inScope, kinds := (g.names, (vs ++ fi).length) :: st.kinds }
  have hnd0 : g.names ∉ st.defined := fun hx => Nat.lt_irrefl _ (hb.names _ hx)
  have m0 : SMove st st0 := by
    have m := enter_move (st := st) (n := g.names)
    refine ⟨m.scope, m.types, fun n k hnk => ?_, m.ctors, m.tys, m.scopeTy, m.back⟩
    show vget n ((g.names, _) :: st.kinds) = some k
    rw [vget_cons, if_neg]
    · exact hnk
    · rintro rfl; exact hnd0 (hb.kinds _ _ hnk)
  have p0 : Pre st0 := ⟨(enter_pre (n := g.names) hs.pre).sub, (enter_pre (n := g.names) hs.pre).subTy⟩
  have s0 : VScope Δ [] [] gn st0 := hs.shift o1 k1 (fun _ _ _ _ _ => by rw [c1]) m0 p0
  have hft : ∀ w ∈ vs ++ fi, w ∉ st0.definedTy := fun w hw hx => Nat.not_le_of_lt (hb.tys w hx) (hlt1 w hw).1
  have s1 : VScope Δ (d.vars ++ []) [] g1 (st0.withTys vs) := s0.typesAt e1 h1 (fun x hx => ⟨rfl, hvoff x hx, by simp⟩) fun w hw => hft w (by simp [hw])
  rw [List.append_nil] at s1
  have hff : ∀ w ∈ fi, w ∉ (st0.withTys vs).definedTy := by
    intro w hw hx
    rcases ((withTys_spec vs st0).2.2.2.2.2.1 w).mp hx with hx | hx
    · exact (List.nodup_append.mp hnod).2.2 w hx w hw rfl
    · exact hft w (by simp [hw]) hx
  have s2 : VScope Δ d.vars [] hg (st0.withTys (vs ++ fi)) := by
    rw [withTys_append]
    exact s1.move e2 (by simp) (withTys_move hff) (withTys_pre s1.pre)
  obtain ⟨x1, x2, x3, x4, x5, x6, x7⟩ := withTys_spec (vs ++ fi) st0
  have hL' : gm.names ≤ L := by
    refine Nat.le_trans ?_ hL
    rw [h4]
    have hl0 : d.ctors.length = (tcs.map (·.name)).length := by
      have := genTyCases_ok (r := recFieldTy g.names vs fi) s2.scope (cs := d.ctors) (fun c hc => ⟨by rw [e2.fields, e1.fields, f1]; exact (hf c hc).1, (hf c hc).2⟩)
      obtain ⟨_, _, q1, -, q2, -⟩ := this
      rw [h2] at q1
      cases q1
      rw [q2]; simp
    exact (genCtorFns_inv (ss := d.ctors.map (·.1) ++ d.vars) hvn (by simp +contextual) hl0 (fun c hc => ⟨List.mem_append.mpr (.inl (List.mem_map_of_mem hc)), by
      rw [ecs.fields, e2.fields, e1.fields, f1]; exact (hf c hc).1⟩) h3).1.le.names
  have rm : Room L hg gm (st0.withTys (vs ++ fi)) := by
    refine ⟨hL', fun n hn _ hx => ?_, fun a ha _ hx => ?_⟩
    · rw [x1] at hx
      rw [hg2n, ng1] at hn
      rcases List.mem_cons.mp hx with rfl | hx
      · exact Nat.not_le_of_lt (Nat.lt_succ_self _) hn
      · exact Nat.lt_irrefl _ (Nat.lt_of_lt_of_le (hb.names _ hx) (Nat.le_trans (Nat.le_succ _) hn))
    · rcases (x6 a).mp hx with hx | hx
      · exact Nat.not_le_of_lt (hlt1 a hx).2 ha
      · exact Nat.not_le_of_lt (hb.tys a hx) (Nat.le_trans lg.tys ha)
  have hrt : ∀ st1, SMove (st0.withTys (vs ++ fi)) st1 → checkTy st1 (recFieldTy g.names vs fi) = some st1 := by
    intro st1 hm
    have hin : ∀ w ∈ vs ++ fi, w ∈ st1.inScopeTy := fun w hw => hm.scopeTy w ((x7 w).mpr (.inl hw))
    cases functor with
    | false =>
      simp only [Bool.false_eq_true, if_false] at hfi
      subst hfi
      have hk := hm.kinds g.names (vs ++ []).length (by rw [x4]; simp [st0, vget_cons])
      simp only [recFieldTy, checkTy, if_pos (hm.scope g.names (by rw [x2]; simp [st0])), hk, Option.bind_some, List.append_nil, List.length_map, if_true]
      exact vget_vars fun w hw => hin w (by simp [hw])
    | true =>
      simp only [if_true] at hfi
      subst hfi
      simp [recFieldTy, checkTy, hin g1.tys (by simp)]
  obtain ⟨-, st2, C⟩ := check_tyCases (ty := g.names) (ws := vs ++ fi) s2 hrt (fun c hc => ⟨by rw [e2.fields, e1.fields, f1]; exact (hf c hc).1, (hf c hc).2⟩) h2 rm
    (fun n k hnk => by
      rw [x5] at hnk
      rw [x1]
      exact List.mem_cons_of_mem _ (hb.ctors n k hnk))
  obtain ⟨st3, hex⟩ := exitTys_some (ws := vs ++ fi) (st := st2) hnod fun w hw => by rw [C.scopeTy]; exact (x7 w).mpr (.inl hw)
  have hst3 := exitTys_spec hex
  have hsub0 : ∀ x ∈ st.defined, x ∈ (st0.withTys (vs ++ fi)).defined := fun x hx => by rw [x1]; exact List.mem_cons_of_mem _ hx
  have m1 : SMove st (st0.withTys (vs ++ fi)) := m0.trans (fun x hx => List.mem_cons_of_mem _ hx) (withTys_move hft)
  have m2 : SMove st st2 := m1.trans hsub0 C.move
  have htop : st3.inScopeTy = [] := by
    rw [hst3]
    simp only [List.filter_eq_nil_iff]
    intro w hw
    rw [C.scopeTy] at hw
    rcases (x7 w).mp hw with hw | hw
    · simp [hw]
    · rw [show st0.inScopeTy = st.inScopeTy from rfl, hb.top] at hw; cases hw
  have m3 : SMove st st3 := by
    refine ⟨by rw [hst3]; exact m2.scope, by rw [hst3]; exact m2.types, by rw [hst3]; exact m2.kinds, by rw [hst3]; exact m2.ctors, by rw [hst3]; exact m2.tys, ?_, ?_⟩
    · rw [hb.top]; simp
    · rw [htop]; simp
  have hd3 : st3.defined = st2.defined := by rw [hst3]
  have ha3 : st3.definedTy = st2.definedTy := by rw [hst3]
  have lgm : Le g gm := lg.trans lcs
  have hus : Used g gm st st3 := by
    refine ⟨fun n hn => ?_, fun a ha => ?_⟩
    · rw [hd3] at hn
      rcases C.used.names n hn with hn | ⟨q1, q2⟩
      · rw [x1] at hn
        rcases List.mem_cons.mp hn with rfl | hn
        · exact .inr ⟨Nat.le_refl _, Nat.lt_of_lt_of_le (by rw [hg2n, ng1]; exact Nat.lt_succ_self _) lcs.names⟩
        · exact .inl hn
      · exact .inr ⟨Nat.le_trans lg.names q1, q2⟩
    · rw [ha3, C.definedTy] at ha
      rcases (x6 a).mp ha with ha | ha
      · exact .inr ⟨(hlt1 a ha).1, Nat.lt_of_lt_of_le (hlt1 a ha).2 lcs.tys⟩
      · exact .inl ha
  have hl0 : d.ctors.length = (tcs.map (·.name)).length := by
    obtain ⟨_, _, q1, -, q2, -⟩ := genTyCases_ok (r := recFieldTy g.names vs fi) s2.scope (cs := d.ctors) (fun c hc => ⟨by rw [e2.fields, e1.fields, f1]; exact (hf c hc).1, (hf c hc).2⟩)
    rw [h2] at q1
    cases q1
    rw [q2]; simp
  obtain ⟨k4, -, v4⟩ := genCtorFns_inv (ss := d.ctors.map (·.1) ++ d.vars) hvn (by simp +contextual) hl0 (fun c hc => ⟨List.mem_append.mpr (.inl (List.mem_map_of_mem hc)), by
    rw [ecs.fields, e2.fields, e1.fields, f1]; exact (hf c hc).1⟩) h3
  have hssoff : ∀ s ∈ d.ctors.map (·.1) ++ d.vars, declOf Δ s = none := by
    intro s hs
    refine hoff s (List.mem_cons_of_mem _ ?_)
    rcases List.mem_append.mp hs with hs | hs
    · exact List.mem_append.mpr (.inr hs)
    · exact List.mem_append.mpr (.inl hs)
  have ho1 : Older Δ [] gn g1 := .ext k1 (by simp) e1 fun b hb => ⟨hvoff b hb, by simp⟩
  have kg1 : GenOK Δ g1 := k1.ext e1 fun b hb => hvoff b hb
  have ho2 : Older Δ [] g1 hg := .ext kg1 (by simp) e2 (by simp)
  have khg : GenOK Δ hg := kg1.ext e2 (by simp)
  have ho3 : Older Δ [] hg gm := .ext khg (by simp) ecs (by simp)
  have kgm : GenOK Δ gm := khg.ext ecs (by simp)
  have ho4 : Older Δ [] gm g4 := .keep kgm.notVar k4 hssoff hvoff
  have ho5 : Older Δ [] gm g' := by
    rw [h4]
    exact ⟨by simp, ho4.decl⟩
  refine ⟨gm, hg, vs, fi, tcs, st3, ?_, lgm, ?_, ?_, hus, m3, fun x hx => ?_, ?_, ?_, ?_, ?_, hfi', ?_, hnod, ?_, ?_, ?_, ?_, ?_⟩
  · rw [h4]
    show g4.types ++ _ = _
    rw [k4.types, ecs.types, e2.types, e1.types, t1]
  · rw [h4]; exact ⟨k4.le.names, k4.le.tys⟩
  · have hlt : g.names < L := Nat.lt_of_lt_of_le (Nat.lt_of_lt_of_le (by rw [hg2n, ng1]; exact Nat.lt_succ_self _) lcs.names) hL'
    simp only [checkTyDef, enter_some hlt hnd0, Option.bind_some]
    have := enterTys_withTys (st := st0) hnod hft
    rw [show VSt.enterTys _ (vs ++ fi) = _ from this, Option.bind_some, C.check, Option.bind_some, hex]
  · rw [hd3]; exact C.sub x (hsub0 x hx)
  · refine ⟨fun x hx => ?_, by rw [htop]; simp⟩
    rw [hd3]
    rw [hst3] at hx
    exact C.pre.sub x hx
  · refine ⟨fun n hn => ?_, fun a ha => ?_, fun n k hk => ?_, fun n k hk => ?_, htop⟩
    · rcases hus.names n hn with hn | hn
      · exact Nat.lt_of_lt_of_le (hb.names n hn) lgm.names
      · exact hn.2
    · rcases hus.tys a ha with ha | ha
      · exact Nat.lt_of_lt_of_le (hb.tys a ha) lgm.tys
      · exact ha.2
    · rw [hst3] at hk
      have hk' : vget n st2.kinds = some k := hk
      rw [C.kinds, x4] at hk'
      rw [hd3]
      refine C.sub n ?_
      rw [x1]
      simp only [st0, vget_cons] at hk'
      split at hk'
      · rename_i e; simp [st0, ← e]
      · exact List.mem_cons_of_mem _ (hb.kinds n k hk')
    · rw [hst3] at hk
      rw [hd3]
      exact C.keys n k hk
  · rw [hst3]
    exact C.move.scope g.names (by rw [x2]; simp [st0])
  · rw [hst3]
    exact C.move.kinds g.names _ (by rw [x4]; simp [st0, vget_cons])
  · rw [← mapOpt_congr (f := g1.tyVars) fun x _ => (e2.ty x (by simp)).symm]
    exact h1
  · intro w hw
    refine ⟨?_, by rw [htop]; simp⟩
    rw [ha3, C.definedTy]
    exact (x6 w).mpr (.inl hw)
  · exact ⟨(((o1.trans ho1).trans ho2).trans ho3).trans ho5, ho3.trans ho5⟩
  · intro i c hi
    obtain ⟨ts, tc', q1, q2, q3⟩ := C.ctors i c hi
    exact ⟨ts, tc', q1, q2, by rw [hst3]; exact q3⟩
  · rintro rfl
    have e : g4.foldedNames = gn.foldedNames := by rw [k4.folded, ecs.folded, e2.folded, e1.folded]
    rw [h4]
    show g4.foldedNames d.sym = _
    rw [e, ← hgn]
    exact setAt_eq
  · intro hF
    obtain ⟨ds, q1, q2⟩ := v4 hF
    refine ⟨g4, ds, by rw [h4], by rw [h4], ?_, ho5, kgm, q2⟩
    rw [h4]
    show g4.defs = _
    rw [q1, ecs.defs, e2.defs, e1.defs, ← hgn]
    subst hF
    rfl

end Tic.Front
