import Verif.VerDefs
/-
Verifying generated programs: constructor functions.
-/
namespace Tic.Front
open Tic.Unify (Symbol IrTy)
open Tic.Core

/-- The generator `g` with the type variables `ga` has for `vars`. -/
def Gen.tyVarsOf (g ga : Gen) (vars : List Symbol) : Gen := { g with tyVars := fun v => if v ∈ vars then ga.tyVars v else g.tyVars v }

theorem ext_tyVarsOf {g ga : Gen} {vars : List Symbol} (h : ∀ v ∈ vars, (ga.tyVars v).isSome) : Ext vars g (g.tyVarsOf ga vars) := by
  refine ⟨Nat.le_refl _, fun _ _ => rfl, fun s hs => if_neg hs, fun s hs => ?_, rfl, rfl, rfl, rfl, rfl, rfl⟩
  show (if s ∈ vars then ga.tyVars s else g.tyVars s).isSome = true
  split
  · rename_i hv; exact h s hv
  · exact hs

theorem tyVarsOf_vars {g ga : Gen} : ∀ {vars : List Symbol}, mapOpt (g.tyVarsOf ga vars).tyVars vars = mapOpt ga.tyVars vars :=
  fun {_} => mapOpt_congr fun _ hx => if_pos hx

/-- The type of a field of a constructor of `d`. -/
def fieldIn (d : TypeDecl) : Field → IrTy
  | .rec_ => .named d.sym (d.vars.map fun v => .named v [])
  | .ty t => t

theorem ctorTy_fields (d : TypeDecl) : ∀ (fs : List Field), ctorTy ⟨d.sym, d.vars, fs⟩ = (fs.map (fieldIn d)).foldr .fn (.named d.sym (d.vars.map fun v => .named v []))
  | [] => rfl
  | f :: fs => by
    have := ctorTy_fields d fs
    simp only [ctorTy, List.foldr_cons, List.map_cons] at this ⊢
    rw [this]
    cases f <;> rfl

theorem genTy_fns {g : Gen} {r : IrTy} {R : Ty} (hr : genTy g r = some R) : ∀ {fs : List Field} {f : Field → IrTy} {ts : List Ty}, mapOpt (fun x => genTy g (f x)) fs = some ts →
    genTy g ((fs.map f).foldr .fn r) = some (ts.foldr (fun t u => .fn [t] u) R)
  | [], f, ts, h => by simp only [mapOpt, Option.some.injEq] at h; subst h; exact hr
  | x :: fs, f, ts, h => by
    simp only [mapOpt, Option.bind_eq_some_iff, Option.map_eq_some_iff] at h
    obtain ⟨t, h1, ts, h2, rfl⟩ := h
    simp only [List.map_cons, List.foldr_cons, genTy, h1, Option.bind_some, genTy_fns hr h2, Option.map_some]

theorem genTys_vars {g : Gen} : ∀ {vars : List Symbol} {vs : List TyVar}, mapOpt g.tyVars vars = some vs → genTys g (vars.map fun v => .named v []) = some (vs.map .var)
  | [], vs, h => by simp only [mapOpt, Option.some.injEq] at h; subst h; rfl
  | x :: xs, vs, h => by
    simp only [mapOpt, Option.bind_eq_some_iff, Option.map_eq_some_iff] at h
    obtain ⟨v, h1, vs, h2, rfl⟩ := h
    simp only [List.map_cons, genTys, genTy, h1, List.isEmpty_nil, if_true, Option.bind_some, genTys_vars h2, Option.map_some]

theorem older_at {Δ : List TypeDecl} {vars : List Symbol} {g ga : Gen} (ho : Older Δ [] ga g) (hv : ∀ v ∈ vars, (ga.tyVars v).isSome ∧ declOf Δ v = none) : Older Δ vars ga (g.tyVarsOf ga vars) := by
  refine ⟨fun v hvs => ?_, fun s d hd => ?_⟩
  · have e : (g.tyVarsOf ga vars).tyVars v = ga.tyVars v := if_pos hvs
    rw [e]; exact ⟨rfl, (hv v hvs).1⟩
  · obtain ⟨h1, h2, h3, h4⟩ := ho.decl s d hd
    have e : (g.tyVarsOf ga vars).tyVars s = g.tyVars s := if_neg fun hs => by rw [(hv s hs).2] at hd; cases hd
    exact ⟨h1, by rw [e]; exact h2, h3, h4⟩

theorem fields_at {Δ : List TypeDecl} {d : TypeDecl} {g ga : Gen} {rty : Ty} (ho : Older Δ d.vars ga g) (hr : genTy g (.named d.sym (d.vars.map fun v => .named v [])) = some rty) :
    ∀ {fs : List Field} {ts : List Ty}, FieldsOK Δ d.vars fs → mapOpt (genField ga rty) fs = some ts → mapOpt (fun f => genTy g (fieldIn d f)) fs = some ts
  | [], ts, _, h => h
  | f :: fs, ts, hf, h => by
    simp only [mapOpt, Option.bind_eq_some_iff, Option.map_eq_some_iff] at h ⊢
    obtain ⟨t, h1, ts, h2, rfl⟩ := h
    refine ⟨t, ?_, ts, fields_at ho hr (fun t ht => hf t (by simp [ht])) h2, rfl⟩
    cases f with
    | rec_ => simp only [genField, Option.some.injEq] at h1; subst h1; exact hr
    | ty u => rw [← h1]; exact (genTy_older ho (hf u (by simp))).symm

/-- The type of a constructor, with the type variables `ga` has. -/
theorem ctorTy_at {Δ Δ₀ : List TypeDecl} {d : TypeDecl} {g ga : Gen} {n : Name} {vs : List TyVar} {fs : List Field} {ts : List Ty} (hg : GenOK Δ g) (hd : declOf Δ d.sym = some d)
    (hdv : d.sym ∉ d.vars) (hn : g.symNames d.sym = some n) (ho : Older Δ₀ [] ga g) (hv : ∀ v ∈ d.vars, declOf Δ₀ v = none) (hvs : mapOpt ga.tyVars d.vars = some vs) (hf : FieldsOK Δ₀ d.vars fs)
    (ht : mapOpt (genField ga (.named n (vs.map .var))) fs = some ts) :
    genTy (g.tyVarsOf ga d.vars) (.named d.sym (d.vars.map fun v => .named v [])) = some (.named n (vs.map .var)) ∧
    mapOpt (fun f => genTy (g.tyVarsOf ga d.vars) (fieldIn d f)) fs = some ts ∧
    genTy (g.tyVarsOf ga d.vars) (ctorTy ⟨d.sym, d.vars, fs⟩) = some (ts.foldr (fun t u => .fn [t] u) (.named n (vs.map .var))) := by
  have hsome : ∀ v ∈ d.vars, (ga.tyVars v).isSome := fun v hvm => by obtain ⟨w, -, e⟩ := mapOpt_get hvs v hvm; simp [e]
  have h1 : genTy (g.tyVarsOf ga d.vars) (.named d.sym (d.vars.map fun v => .named v [])) = some (.named n (vs.map .var)) := by
    have e1 : (g.tyVarsOf ga d.vars).tyVars d.sym = none := (if_neg hdv).trans (hg.notVar _ d hd)
    have e2 : (g.tyVarsOf ga d.vars).symNames d.sym = some n := hn
    have e3 := genTys_vars (g := g.tyVarsOf ga d.vars) (vars := d.vars) (vs := vs) (by rw [tyVarsOf_vars]; exact hvs)
    simp only [genTy, e1, e2, e3, Option.bind_some, Option.map_some]
  have h2 := fields_at (older_at ho fun v hvm => ⟨hsome v hvm, hv v hvm⟩) h1 hf ht
  exact ⟨h1, h2, by rw [ctorTy_fields]; exact genTy_fns h1 h2⟩

theorem checkFields_names {L : Nat} {st : VSt} {vars : List TyVar} {tys : List Ty} : ∀ {fs ts : List Ty} {ps : List Name}, ps.length = ts.length → fs.map (replaceAll vars tys) = ts →
    (∀ p ∈ ps.zip ts, p.1 ∈ st.inScope ∧ vget p.1 st.types = some p.2) → checkFields L vars tys st fs (ps.map .name) = some st
  | [], ts, ps, _, _, _ => by cases ps <;> simp [checkFields]
  | f :: fs, [], ps, _, h2, _ => by simp at h2
  | f :: fs, t :: ts, [], h1, _, _ => by simp at h1
  | f :: fs, t :: ts, p :: ps, h1, h2, h3 => by
    simp only [List.map_cons, List.cons.injEq] at h2
    obtain ⟨q1, q2⟩ := h3 (p, t) (by simp)
    simp only [List.map_cons, checkFields, checkExpr]
    rw [if_pos q1]
    simp only [q2, Option.bind_some, h2.1, fits_refl, if_true]
    exact checkFields_names (by simpa using h1) h2.2 fun q hq => h3 q (by simp [hq])

theorem zip_map_fst {α β : Type} : ∀ {xs : List α} {ys : List β}, xs.length = ys.length → (xs.zip ys).map (·.1) = xs
  | [], [], _ => rfl
  | x :: xs, y :: ys, h => by simp [zip_map_fst (xs := xs) (ys := ys) (by simpa using h)]

theorem zip_map_snd {α β : Type} : ∀ {xs : List α} {ys : List β}, xs.length = ys.length → (xs.zip ys).map (·.2) = ys
  | [], [], _ => rfl
  | x :: xs, y :: ys, h => by simp [zip_map_snd (xs := xs) (ys := ys) (by simpa using h)]

/-- One constructor function. -/
theorem check_ctorFn {Δ Δ₀ : List TypeDecl} {L : Nat} {Γ : Ctx} {g g1 g2 ga gc : Gen} {st : VSt} {d : TypeDecl} {n : Name} {c : Symbol × List Field} {k : Ctor} {e : ValueDef} {ps vs vs' ts ts'}
    (hs : VScope Δ [] Γ g2 st) (hd : declOf Δ d.sym = some d) (hn : g2.symNames d.sym = some n) (hc : c ∈ d.ctors) (hk : g2.ctors c.1 = some k)
    (hv : ∀ x ∈ d.vars, Γ.find x = none ∧ declOf Δ x = none ∧ declOf Δ₀ x = none) (hdv : d.sym ∉ d.vars) (hf : FieldsOK Δ₀ d.vars c.2) (hf' : FieldsOK Δ d.vars c.2)
    (hw : WfTy Δ d.vars (ctorTy ⟨d.sym, d.vars, c.2⟩) ∧ Plain (ctorTy ⟨d.sym, d.vars, c.2⟩))
    (F : CtorFnV n d.vars g g1 c.2 k.regular e ga gc ps vs vs' ts ts') (oa : Older Δ₀ [] ga g2) (oc : Older Δ₀ [] gc g2) (rm : Room L g g1 st) (hsym : g2.symNames c.1 = some e.name)
    (htop : st.inScopeTy = []) :
    ∃ st', (∀ ds, checkDefs L st (e :: ds) = checkDefs L st' ds) ∧ VScope Δ [] ((c.1, ⟨d.vars, ctorTy ⟨d.sym, d.vars, c.2⟩⟩) :: Γ) g2 st' ∧ Used g g1 st st' ∧ SMove st st' ∧
      (∀ x ∈ st.defined, x ∈ st'.defined) ∧ st'.inScopeTy = [] := by
  obtain ⟨nd1, nd2, nd3⟩ := List.nodup_append.mp F.nodup
  obtain ⟨-, t2, t3⟩ := ctorTy_at hs.gen hd hdv hn oa (fun v hm => (hv v hm).2.2) F.tyVars hf F.fieldTys
  obtain ⟨-, -, t3'⟩ := ctorTy_at hs.gen hd hdv hn oc (fun v hm => (hv v hm).2.2) F.tyVars' hf F.fieldTys'
  have sa : ∀ v ∈ d.vars, (ga.tyVars v).isSome := fun v hvm => by obtain ⟨w, -, e⟩ := mapOpt_get F.tyVars v hvm; simp [e]
  have sc : ∀ v ∈ d.vars, (gc.tyVars v).isSome := fun v hvm => by obtain ⟨w, -, e⟩ := mapOpt_get F.tyVars' v hvm; simp [e]
  have hv' : ∀ x ∈ d.vars, Γ.find x = none ∧ declOf Δ x = none ∧ x ∉ ([] : List Symbol) := fun x hx => ⟨(hv x hx).1, (hv x hx).2.1, by simp⟩
  have ltL : ∀ x : Name, x < g1.names → x < L := fun x hx => Nat.lt_of_lt_of_le hx rm.limit
  -- the type
  have fr' : ∀ w ∈ vs', w ∉ st.definedTy := fun w hw => rm.tys w (F.range w (by simp [hw])).1 (F.range w (by simp [hw])).2
  have sc1 := hs.typesAt (ext_tyVarsOf sc) (by rw [tyVarsOf_vars]; exact F.tyVars') hv' fr'
  rw [List.append_nil] at sc1
  obtain ⟨st1, y1, y2, y3, y4, y5, y6⟩ := def_ty nd1 fr' hs.pre (checkTy_gen sc1 hw.1 t3')
  -- the function
  have hs1 : VScope Δ [] Γ g2 st1 := hs.move (Ext.refl [] g2) (by simp) y2 y3
  have fr : ∀ w ∈ vs, w ∉ st1.definedTy := by
    intro w hw hx
    rcases (y6 w).mp hx with hx | hx
    · exact nd3 w hx w hw rfl
    · exact rm.tys w (F.range w (by simp [hw])).1 (F.range w (by simp [hw])).2 hx
  have sa1 := hs1.typesAt (ext_tyVarsOf sa) (by rw [tyVarsOf_vars]; exact F.tyVars) hv' fr
  rw [List.append_nil] at sa1
  obtain ⟨x1, -, -, -, -, x6, x7⟩ := withTys_spec vs st1
  obtain ⟨n', m, D⟩ := sa1.decl _ d hd
  have : n' = n := by
    have e1 := D.name
    rw [show (g2.tyVarsOf ga d.vars).symNames d.sym = some n from hn] at e1
    cases e1; rfl
  subst this
  obtain ⟨k', hk', K⟩ := D.ctors c hc
  rw [show (g2.tyVarsOf ga d.vars).ctors c.1 = some k from hk] at hk'
  cases hk'
  have hwa : WfTys Δ d.vars (d.vars.map fun v => .named v []) := wfTys_varNames fun x hx => ⟨hx, (hv x hx).2.1⟩
  have hga : genTys (g2.tyVarsOf ga d.vars) (d.vars.map fun v => .named v []) = some (vs.map .var) := genTys_vars (by rw [tyVarsOf_vars]; exact F.tyVars)
  obtain ⟨ws, tsc, z1, z2, z3⟩ := case_regular sa1 D hd K hwa (by simp) hga
  have z4 : tsc.map (replaceAll ws (vs.map .var)) = ts := by
    have : mapOpt (fun f => genTy (g2.tyVarsOf ga d.vars) (fieldTy d.vars (d.vars.map fun v => .named v []) (.named d.sym (d.vars.map fun v => .named v [])) f)) c.2 =
        mapOpt (fun f => genTy (g2.tyVarsOf ga d.vars) (fieldIn d f)) c.2 := by
      refine mapOpt_congr fun f hfm => ?_
      cases f with
      | rec_ => rfl
      | ty t => simp only [fieldTy, fieldIn]; rw [substTy_id (fun v hvm => (hv v hvm).2.1) (hf' t hfm)]
    rw [this, t2] at z3
    cases z3
    rfl
  have hlt : ts.length = c.2.length := mapOpt_tyVars_length F.fieldTys
  have hpl : ps.length = ts.length := by rw [F.params.2.1, hlt]
  have hT : genTy (g2.tyVarsOf ga d.vars) (ctorTy ⟨d.sym, d.vars, c.2⟩) = some (ts.foldr (fun t u => .fn [t] u) (.named n' (vs.map .var))) := t3
  obtain ⟨st2, c1, c2, c3⟩ := check_lams (L := L) (body := .con k.regular (vs.map .var) (ps.map .name)) (R := .named n' (vs.map .var)) (ps := ps.zip ts) (st := st1.withTys vs) sa1.pre
    (by rw [zip_map_fst hpl]; exact F.params.1)
    (fun p hp => by
      have hp1 := (List.of_mem_zip hp).1
      refine ⟨ltL _ (F.params.2.2 _ hp1).2, ?_⟩
      rw [x1, y4]
      exact rm.names _ (Nat.le_of_lt (F.params.2.2 _ hp1).1) (F.params.2.2 _ hp1).2)
    (fun p hp st3 m p' => by
      have hp2 := (List.of_mem_zip hp).2
      have sa3 := sa1.move (Ext.refl [] _) (by simp) m p'
      obtain ⟨i, hi⟩ := List.getElem?_of_mem hp2
      have hil : i < c.2.length := by rw [← hlt]; exact (List.getElem?_eq_some_iff.mp hi).1
      obtain ⟨y, q1, q2⟩ := mapOpt_idx t2 (List.getElem?_eq_getElem hil)
      rw [hi] at q1
      cases q1
      refine checkTy_gen sa3 ?_ q2
      cases hfi : c.2[i] with
      | rec_ =>
        simp only [fieldIn, WfTy]
        exact ⟨.inr (by simp [hd]), by simp [arity, hd], hwa⟩
      | ty t => exact hf' t (hfi ▸ List.getElem_mem hil))
    (fun st3 m p' hall => by
      have hg := m.ctors _ _ z1
      simp only [Bool.false_eq_true, if_false] at hg
      have hl2 : tsc.length = ps.length := by rw [hpl, ← z4, List.length_map]
      simp only [checkExpr, hg, Option.bind_some]
      rw [if_pos ⟨z2, by rw [List.length_map]; exact hl2⟩, checkFields_names hpl z4 hall]
      rfl)
  rw [zip_map_snd hpl] at c1
  obtain ⟨st3, p1, p2, p3⟩ := check_pis nd2 fr y3 c1
  have ch := (checkExpr_chk y3 p1).1
  have hdef : ∀ x ∈ st3.defined, x ∈ st.defined ∨ x ∈ ps := by
    intro x hx
    rw [p2] at hx
    rcases c2 x hx with hx | hx
    · rw [x1, y4] at hx; exact .inl hx
    · rw [zip_map_fst hpl] at hx; exact .inr hx
  have hnm : e.name ∉ st3.defined := by
    intro hx
    rw [F.name] at hx
    rcases hdef _ hx with hx | hx
    · exact rm.names _ (Nat.le_refl _) F.lt hx
    · exact Nat.lt_irrefl _ (F.params.2.2 _ hx).1
  have hm3 : SMove st st3 := y2.trans (fun x hx => by rw [y4]; exact hx) ch.move
  have hsub3 : ∀ x ∈ st.defined, x ∈ st3.defined := fun x hx => ch.sub (by rw [y4]; exact hx)
  have hp3 : Pre st3 := ch.pre y3
  have top3 : st3.inScopeTy = [] := by rw [ch.inScopeTy, y5, htop]
  have hs3 : VScope Δ [] Γ g2 st3 := hs.move (Ext.refl [] g2) (by simp) hm3 hp3
  have hty3 : ∀ a, a ∈ st3.definedTy ↔ a ∈ vs ∨ a ∈ vs' ∨ a ∈ st.definedTy := by
    intro a
    rw [p3, c3, x6, y6]
  refine ⟨st3.bind e.name (absTys vs (ts.foldr (fun t u => .fn [t] u) (.named n' (vs.map .var)))), fun ds => ?_, ?_, ?_, ?_, ?_, top3⟩
  · refine checkDefs_one (by rw [F.ty]; exact y1) (by rw [F.value]; exact p1) ?_ (by rw [F.name]; exact ltL _ F.lt) hnm
    rw [F.ty]
    refine fits_scheme (Δ := Δ) (vars := d.vars) (h := g2.tyVarsOf ga d.vars) (h' := g2.tyVarsOf gc d.vars) ?_ (by rw [tyVarsOf_vars]; exact F.tyVars) (by rw [tyVarsOf_vars]; exact F.tyVars') hw.2 hw.1 t3 t3'
    have o1 : Older Δ [] g2 (g2.tyVarsOf ga d.vars) := .ext hs.gen (by simp) (ext_tyVarsOf sa) fun b hb => (hv' b hb).2
    have o2 : Older Δ [] g2 (g2.tyVarsOf gc d.vars) := .ext hs.gen (by simp) (ext_tyVarsOf sc) fun b hb => (hv' b hb).2
    exact o1.symm0.trans o2
  · refine hs3.bind hsym hnm ⟨Δ, [], g2.tyVarsOf ga d.vars, vs, _, ⟨fun _ _ h => h, by simp, ?_, fun x hx => ⟨by simp, (hv x hx).2.1⟩, by rw [tyVarsOf_vars]; exact F.tyVars, nd2, ?_⟩, ?_, t3, rfl, .inr hw.2⟩
    · exact (Older.ext hs.gen (by simp) (ext_tyVarsOf sa) fun b hb => (hv' b hb).2).symm0
    · intro w hw
      exact ⟨(hty3 w).mpr (.inl hw), by rw [top3]; simp⟩
    · simpa using hw.1
  · refine ⟨fun x hx => ?_, fun a ha => ?_⟩
    · simp only [VSt.bind, List.mem_cons] at hx
      rcases hx with rfl | hx
      · rw [F.name]; exact .inr ⟨Nat.le_refl _, F.lt⟩
      · rcases hdef x hx with hx | hx
        · exact .inl hx
        · exact .inr ⟨Nat.le_of_lt (F.params.2.2 x hx).1, (F.params.2.2 x hx).2⟩
    · rcases (hty3 a).mp ha with ha | ha | ha
      · exact .inr (F.range a (by simp [ha]))
      · exact .inr (F.range a (by simp [ha]))
      · exact .inl ha
  · exact hm3.trans hsub3 (bind_move hnm)
  · exact fun x hx => List.mem_cons_of_mem _ (hsub3 x hx)

/-- All constructor functions of a type. -/
theorem check_ctorFns {Δ Δ₀ : List TypeDecl} {L : Nat} {g2 : Gen} {d : TypeDecl} {n : Name} {ss : List Symbol} (hd : declOf Δ d.sym = some d) (hn : g2.symNames d.sym = some n)
    (hv : ∀ x ∈ d.vars, declOf Δ x = none ∧ declOf Δ₀ x = none) (hss : ∀ s ∈ ss, declOf Δ₀ s = none) (hdv : d.sym ∉ d.vars) (hcv : ∀ c ∈ d.ctors, c.1 ∉ d.vars)
    (hf : ∀ c ∈ d.ctors, FieldsOK Δ₀ d.vars c.2 ∧ FieldsOK Δ d.vars c.2)
    (hw : ∀ c ∈ d.ctors, WfTy Δ d.vars (ctorTy ⟨d.sym, d.vars, c.2⟩) ∧ Plain (ctorTy ⟨d.sym, d.vars, c.2⟩)) {g g' : Gen} {cs : List (Symbol × List Field)} {ns : List Name} {ds : List ValueDef}
    (V : CtorFnsV n d.vars ss g g' cs ns ds) : ∀ {Γ : Ctx} {st : VSt}, VScope Δ [] Γ g2 st → (∀ c ∈ cs, c ∈ d.ctors) → (∀ x ∈ d.vars, Γ.find x = none) →
    (∀ (i : Nat) c nm, cs[i]? = some c → ns[i]? = some nm → ∃ k, g2.ctors c.1 = some k ∧ k.regular = nm) →
    (∀ (i : Nat) c e, cs[i]? = some c → ds[i]? = some e → g2.symNames c.1 = some e.name) → Older Δ₀ [] g g2 → Room L g g' st → st.inScopeTy = [] →
    ∃ st', checkDefs L st ds = some st' ∧ VScope Δ [] (ctorsCtx d.sym d.vars cs ++ Γ) g2 st' ∧ Used g g' st st' ∧ SMove st st' ∧ (∀ x ∈ st.defined, x ∈ st'.defined) ∧ st'.inScopeTy = [] := by
  induction V with
  | nil =>
    intro Γ st hs _ _ _ _ _ _ ht
    exact ⟨st, rfl, hs, .same, .refl _, fun _ h => h, ht⟩
  | @cons g g1 g' ga gc c cs cn ns e ds ps vs vs' ts ts' ka kc k1 F V ih =>
    intro Γ st hs hcs hΓ hk hsym ho rm ht
    have hc := hcs c (by simp)
    obtain ⟨k, hk1, hk2⟩ := hk 0 c cn rfl rfl
    subst hk2
    have hvo : ∀ s ∈ d.vars, declOf Δ₀ s = none := fun s hs => (hv s hs).2
    have oa : Older Δ₀ [] g ga := .keep (fun s d hd => (ho.decl s d hd).1) ka hss hvo
    have oc : Older Δ₀ [] g gc := .keep (fun s d hd => (ho.decl s d hd).1) kc hss hvo
    have o1 : Older Δ₀ [] g g1 := .keep (fun s d hd => (ho.decl s d hd).1) k1 hss hvo
    obtain ⟨st1, c1, c2, c3, c4, c5, c6⟩ := check_ctorFn hs hd hn hc hk1 (fun x hx => ⟨hΓ x hx, hv x hx⟩) hdv (hf c hc).1 (hf c hc).2 (hw c hc) F (oa.symm0.trans ho) (oc.symm0.trans ho)
      (rm.left V.le) (hsym 0 c e rfl rfl) ht
    obtain ⟨st2, d1, d2, d3, d4, d5, d6⟩ := ih (Γ := (c.1, ⟨d.vars, ctorTy ⟨d.sym, d.vars, c.2⟩⟩) :: Γ) (st := st1) c2 (fun c' hc' => hcs c' (by simp [hc']))
      (fun x hx => by
        simp only [Ctx.find]
        rw [if_neg (fun (e : c.1 = x) => hcv c hc (e ▸ hx))]
        exact hΓ x hx)
      (fun i c' nm h1 h2 => hk (i + 1) c' nm (by simpa using h1) (by simpa using h2)) (fun i c' e' h1 h2 => hsym (i + 1) c' e' (by simpa using h1) (by simpa using h2))
      (o1.symm0.trans ho) (rm.right k1.le c3) c6
    · refine ⟨st2, by rw [c1]; exact d1, ?_, c3.trans k1.le V.le d3, c4.trans c5 d4, fun x hx => d5 x (c5 x hx), d6⟩
      simpa [ctorsCtx] using d2

end Tic.Front
