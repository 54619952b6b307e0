import Verif.VerInst
/-
Verifying generated code: constructors, names, binders.
-/
namespace Tic.Front
open Tic.Unify (Symbol IrTy)
open Tic.Core

/-! ### Constructors -/

theorem replaceAll_append : ∀ {ws ws' : List TyVar} {us us' : List Ty} {t : Ty}, ws.length = us.length →
    replaceAll (ws ++ ws') (us ++ us') t = replaceAll ws' us' (replaceAll ws us t)
  | [], ws', [], us', t, _ => by simp [replaceAll]
  | w :: ws, ws', u :: us, us', t, h => by
    simp only [List.cons_append, replaceAll]
    exact replaceAll_append (by simpa using h)

/-- The type `nm us` has a constructor for `c`, whose fields have the types `tyOf` says. -/
def CaseV (g : Gen) (st : VSt) (folded : Bool) (nm : Name) (us : List Ty) (k : Ctor) (fields : List Field) (tyOf : Field → IrTy) : Prop :=
  ∃ ws ts, vget (if folded then k.folded else k.regular) st.ctors = some ⟨nm, ws, ts⟩ ∧ ws.length = us.length ∧
    mapOpt (fun f => genTy g (tyOf f)) fields = some (ts.map (replaceAll ws us))

theorem fields_inst {g h : Gen} {rty : Ty} {recTy : IrTy} {vars : List Symbol} {args : List IrTy} {ρ : Ty → Ty} : ∀ {fs : List Field} {ts : List Ty},
    mapOpt (genField h rty) fs = some ts → (∀ t, Field.ty t ∈ fs → ∀ T, genTy h t = some T → genTy g (substTy (vars.zip args) t) = some (ρ T)) →
    genTy g recTy = some (ρ rty) → mapOpt (fun f => genTy g (fieldTy vars args recTy f)) fs = some (ts.map ρ)
  | [], ts, h1, _, _ => by simp only [mapOpt, Option.some.injEq] at h1; subst h1; rfl
  | f :: fs, ts, h1, h2, h3 => by
    simp only [mapOpt, Option.bind_eq_some_iff, Option.map_eq_some_iff] at h1 ⊢
    obtain ⟨T, e1, ts, e2, rfl⟩ := h1
    refine ⟨ρ T, ?_, _, fields_inst e2 (fun t ht => h2 t (by simp [ht])) h3, rfl⟩
    cases f with
    | rec_ =>
      simp only [genField, Option.some.injEq] at e1
      subst e1
      exact h3
    | ty t => exact h2 t (by simp) T e1

theorem mapOpt_tyVars_length {α β : Type} {f : α → Option β} : ∀ {xs ys}, mapOpt f xs = some ys → ys.length = xs.length
  | [], ys, h => by simp only [mapOpt, Option.some.injEq] at h; subst h; rfl
  | x :: xs, ys, h => by
    simp only [mapOpt, Option.bind_eq_some_iff, Option.map_eq_some_iff] at h
    obtain ⟨y, -, ys, h, rfl⟩ := h
    simp [mapOpt_tyVars_length h]

theorem Entry.length {Δ vs g st vars ws h Δ₀ vs₀} (he : Entry Δ vs g st vars ws h Δ₀ vs₀) : ws.length = vars.length := mapOpt_tyVars_length he.vars

theorem replaceAll_vars : ∀ {ws : List TyVar} {us : List Ty}, ws.Nodup → ws.length = us.length → (∀ u ∈ us, Mono0 u ∧ ∀ w ∈ ws, w ∉ tfv u) →
    (ws.map Ty.var).map (replaceAll ws us) = us := by
  intro ws us hn hl hu
  apply List.ext_getElem?
  intro i
  simp only [List.map_map, List.getElem?_map]
  cases hw : ws[i]? with
  | none =>
    have : us[i]? = none := by
      rw [List.getElem?_eq_none_iff] at hw ⊢; omega
    simp [this]
  | some w =>
    have hi : i < us.length := by
      have := (List.getElem?_eq_some_iff.mp hw).1; omega
    have hu' : us[i]? = some us[i] := by simp [hi]
    simp only [Option.map_some, Function.comp]
    rw [replaceAll_get hn hu hw hu', hu']

theorem mono0L_mem : ∀ {us : List Ty}, Mono0L us → ∀ u ∈ us, Mono0 u
  | u :: us, h, x, hx => by
    simp only [Mono0L] at h
    rcases List.mem_cons.mp hx with rfl | hx
    · exact h.1
    · exact mono0L_mem h.2 x hx

theorem case_regular {Δ vs Γ g st d n m fs k args us} (hs : VScope Δ vs Γ g st) (D : DeclV Δ g st d n m) (hd : declOf Δ d.sym = some d) (hc : CtorV Δ g st d n m fs k) (hw : WfTys Δ vs args)
    (hl : args.length = d.vars.length) (hu : genTys g args = some us) : CaseV g st false n us k fs (fieldTy d.vars args (.named d.sym args)) := by
  obtain ⟨Δ₀, h, ws, ts, h1, h2, h3, h4⟩ := hc.regular
  have hlen : ws.length = us.length := by rw [h1.length, genTys_length hu, hl]
  refine ⟨ws, ts, h3, hlen, fields_inst h4 (fun t ht T hT => ?_) ?_⟩
  · exact h1.inst hs (by simp) (h2 t ht).1 (by simpa using (h2 t ht).2) hw hl hu hT
  · simp only [genTy, hs.gen.notVar _ d hd, D.name, hu, Option.bind_some, Option.map_some, replaceAll_named]
    rw [replaceAll_vars h1.nodup hlen fun u hu' => ⟨mono0L_mem (genTys_mono0 hu) u hu', h1.absent hs (checkTys_gen hs hw hu) u hu'⟩]

theorem case_folded {Δ vs Γ g st d n m fs k args us recTy R} (hs : VScope Δ vs Γ g st) (hc : CtorV Δ g st d n m fs k) (hw : WfTys Δ vs args)
    (hl : args.length = d.vars.length) (hu : genTys g args = some us) (hr : genTy g recTy = some R) :
    CaseV g st true m (us ++ [R]) k fs (fieldTy d.vars args recTy) := by
  obtain ⟨Δ₀, h, ws, r, ts, h1, h2, h5, h6, h3, h4⟩ := hc.folded
  have hlen : ws.length = us.length := by rw [h1.length, genTys_length hu, hl]
  refine ⟨ws ++ [r], ts, h3, by simp [hlen], fields_inst h4 (fun t ht T hT => ?_) ?_⟩
  · have e := h1.inst hs (by simp) (h2 t ht).1 (by simpa using (h2 t ht).2) hw hl hu hT
    rw [replaceAll_append hlen, e]
    have hwt : WfTy Δ (d.vars ++ vs) t := wf_sub h1.sub (fun v hv => by simp [hv]) (fun v hv => (h1.off v hv).2) (h2 t ht).2
    have hck := checkTy_gen hs (wf_inst hl hw hwt) e
    rw [replaceAll_absent (genTy_mono0 e)]
    intro w hw' hx
    rw [List.mem_singleton.mp hw'] at hx
    exact h6.2 (checkTy_tfv hs.pre hck r hx)
  · rw [replaceAll_append hlen, replaceAll_varNotMem h5, hr]
    simp [replaceAll, replace]

/-! ### Names -/

theorem replace_absTys {a : TyVar} {u : Ty} : ∀ (ws : List TyVar) (t : Ty), replace a u (absTys ws t) = absTys ws (replace a u t)
  | [], _ => rfl
  | w :: ws, t => by
    have := replace_absTys (a := a) (u := u) ws t
    simp only [absTys, List.foldr_cons, replace] at this ⊢
    rw [this]

theorem check_piApps {L : Nat} {st st' : VSt} : ∀ {us : List Ty} {ws : List TyVar} {e : Expr} {T : Ty}, ws.length = us.length →
    checkExpr L st e = some (absTys ws T, st') → checkExpr L st (piApps e us) = some (replaceAll ws us T, st')
  | [], [], e, T, _, h => by simpa [piApps, replaceAll, absTys] using h
  | u :: us, w :: ws, e, T, hl, h => by
    simp only [piApps, replaceAll]
    refine check_piApps (by simpa using hl) ?_
    have h : checkExpr L st e = some (.abs w (absTys ws T), st') := h
    simp only [checkExpr, h, Option.bind_some, replace_absTys]

theorem Entry.wf {Δ vs Γ g st vars ws h Δ₀ vs₀ t} (he : Entry Δ vs g st vars ws h Δ₀ vs₀) (hs : VScope Δ vs Γ g st) (hw : WfTy Δ₀ (vars ++ vs₀) t) : WfTy Δ (vars ++ vs) t := by
  refine wf_sub he.sub (fun v hv => ?_) (fun v hv => ?_) hw
  · rcases List.mem_append.mp hv with hv | hv
    · simp [hv]
    · simp [he.subv v hv]
  · rcases List.mem_append.mp hv with hv | hv
    · exact (he.off v hv).2
    · exact (hs.vars v (he.subv v hv)).1

/-- A name used at an instance of its type. -/
theorem check_name {Δ L vs Γ g st s sch inst us n} (hs : VScope Δ vs Γ g st) (hf : Γ.find s = some sch) (hl : inst.length = sch.vars.length) (hi : WfTys Δ vs inst)
    (hn : g.symNames s = some n) (hu : genTys g inst = some us) : ∃ T, WfTy Δ vs (substTy (sch.vars.zip inst) sch.ty) ∧ genTy g (substTy (sch.vars.zip inst) sch.ty) = some T ∧
      checkExpr L st (piApps (.name n) us) = some (T, st) := by
  obtain ⟨n', T, e1, e2, e3, Δ₀, vs₀, h, ws, T₀, f1, f2, f3, rfl, f4⟩ := hs.ctx s sch hf
  rw [hn] at e1; cases e1
  refine ⟨replaceAll ws us T₀, wf_inst hl hi (f1.wf hs f2), ?_, ?_⟩
  · rcases f4 with f4 | f4
    · have hi0 : inst = [] := by rw [f4] at hl; exact List.eq_nil_of_length_eq_zero hl
      have hw0 : ws = [] := by have := f1.length; rw [f4] at this; exact List.eq_nil_of_length_eq_zero this
      rw [f4, hw0]
      simp only [List.zip_nil_left, substTy_nil, replaceAll]
      rw [f4] at f2
      rw [← genTy_older f1.older f2]
      exact f3
    · exact f1.inst hs (fun _ h => h) f4 f2 hi hl hu f3
  · refine check_piApps (by rw [f1.length, genTys_length hu, hl]) ?_
    simp only [checkExpr, if_pos e2, e3, Option.bind_some]

/-! ### Binders -/

/-- The state after entering a name of a type. -/
def _root_.Tic.Core.VSt.bind (st : VSt) (n : Name) (T : Ty) : VSt :=
  { st with defined := n :: st.defined, inScope := n :: st.inScope, types := (n, T) :: st.types }

theorem enter_some {L : Nat} {st : VSt} {n : Name} (h1 : n < L) (h2 : n ∉ st.defined) :
    st.enter L n = some { st with defined := n :: st.defined, inScope := n :: st.inScope } := by
  unfold VSt.enter
  rw [if_neg (Nat.not_le.mpr h1), if_neg h2]

theorem bind_entered {L : Nat} {st : VSt} {n : Name} {T : Ty} (h1 : n < L) (h2 : n ∉ st.defined) : Entered L st (st.bind n T) [n] [T] :=
  entered_one (enter_some h1 h2) (Chk.refl _)

theorem bind_move {st : VSt} {n : Name} {T : Ty} (h : n ∉ st.defined) : SMove st (st.bind n T) := by
  refine ⟨fun x hx => by simp [VSt.bind, hx], fun x hx => ?_, fun _ _ h => h, fun _ _ h => h, fun _ h => h, fun _ h => h, fun _ _ h => h⟩
  simp only [VSt.bind, vget_cons]
  rw [if_neg (by rintro rfl; exact h hx)]

theorem bind_pre {st : VSt} {n : Name} {T : Ty} (h : Pre st) : Pre (st.bind n T) := by
  refine ⟨fun x hx => ?_, h.subTy⟩
  simp only [VSt.bind, List.mem_cons] at hx ⊢
  exact hx.imp_right (h.sub x)

theorem bind_used {g g' : Gen} {st : VSt} {n : Name} {T : Ty} (h1 : g.names ≤ n) (h2 : n < g'.names) : Used g g' st (st.bind n T) := by
  refine ⟨fun x hx => ?_, fun x hx => .inl hx⟩
  simp only [VSt.bind, List.mem_cons] at hx
  rcases hx with rfl | hx
  · exact .inr ⟨h1, h2⟩
  · exact .inl hx

theorem VScope.bind {Δ vs Γ g st s sch n T} (h : VScope Δ vs Γ g st) (hs : g.symNames s = some n) (hn : n ∉ st.defined) (ht : SchV Δ vs g st sch T) :
    VScope Δ vs ((s, sch) :: Γ) g (st.bind n T) := by
  have hv : ∀ v ∈ vs, (g.tyVars v).isSome := fun v hv => (h.scope.vars v hv).1
  have hm := bind_move (T := T) hn
  have h' := h.move (Ext.refl [] g) (by simp) hm (bind_pre h.pre)
  refine ⟨h'.pre, h'.gen, h'.vars, h'.decl, fun x sc hx => ?_⟩
  simp only [Ctx.find] at hx
  split at hx
  · rename_i he
    cases hx
    subst he
    exact ⟨n, T, hs, by simp [VSt.bind], by simp [VSt.bind, vget_cons], ht.move (.refl h.gen hv) (fun _ h => h) hm⟩
  · exact h'.ctx x sc hx

theorem SchV.mono {Δ vs Γ g st t T} (h : VScope Δ vs Γ g st) (hw : WfTy Δ vs t) (ht : genTy g t = some T) : SchV Δ vs g st (mono t) T :=
  ⟨Δ, vs, g, [], T, ⟨fun _ _ h => h, fun _ h => h, .refl h.gen fun v hv => (h.scope.vars v hv).1, by simp [Tic.Front.mono], by simp [Tic.Front.mono, mapOpt], by simp, by simp⟩,
    by simpa [Tic.Front.mono] using hw, by simpa [Tic.Front.mono] using ht, rfl, .inl rfl⟩

/-- Binding a new symbol to a type. -/
theorem VScope.add {Δ L vs Γ g st s t T} (h : VScope Δ vs Γ g st) (hf : Γ.find s = none ∧ declOf Δ s = none ∧ s ∉ vs) (hn : g.names ∉ st.defined)
    (hw : WfTy Δ vs t) (ht : genTy g t = some T) (_ : g.names < L) : VScope Δ vs ((s, Tic.Front.mono t) :: Γ) (g.genName s).1 (st.bind g.names T) := by
  have h1 := h.move (ext_genName g s) (by simpa using hf) (Chk.refl (L := L) st).move h.pre
  have ho : Older Δ vs g (g.genName s).1 := .ext h.gen (fun v hv => (h.scope.vars v hv).1) (ext_genName g s) (by simpa using hf.2)
  refine h1.bind ?_ hn (SchV.mono h1 hw ?_)
  · simp [Gen.genName, setAt]
  · rw [← genTy_older ho hw]; exact ht

theorem exits_some : ∀ {ns : List Name} {st : VSt}, ns.Nodup → (∀ n ∈ ns, n ∈ st.inScope) → ∃ st', st.exits ns = some st' ∧ st'.defined = st.defined ∧ st'.definedTy = st.definedTy
  | [], st, _, _ => ⟨st, rfl, rfl, rfl⟩
  | n :: ns, st, hn, h => by
    have hn := List.nodup_cons.mp hn
    obtain ⟨st', h1, h2, h3⟩ := exits_some (ns := ns) (st := { st with inScope := st.inScope.filter (fun m => m != n) }) hn.2 fun m hm => by
      simp only [List.mem_filter, bne_iff_ne]
      exact ⟨h m (by simp [hm]), by rintro rfl; exact hn.1 hm⟩
    refine ⟨st', ?_, h2, h3⟩
    simp only [VSt.exits, VSt.exit, if_pos (h n (by simp)), Option.bind_some]
    exact h1

theorem exit_some {n : Name} {st : VSt} (h : n ∈ st.inScope) : ∃ st', st.exit n = some st' ∧ st'.defined = st.defined ∧ st'.definedTy = st.definedTy :=
  ⟨{ st with inScope := st.inScope.filter (fun m => m != n) }, by simp only [VSt.exit, if_pos h], rfl, rfl⟩

theorem Used.exit {g g' st st1 st2} (h : Used g g' st st1) (h1 : st2.defined = st1.defined) (h2 : st2.definedTy = st1.definedTy) : Used g g' st st2 :=
  ⟨fun n hn => h.names n (h1 ▸ hn), fun n hn => h.tys n (h2 ▸ hn)⟩

/-- Binding the variables of a pattern. -/
theorem VScope.addBinds {Δ L vs} {vars : List TyVar} {args : List Ty} : ∀ (pvs : List (Symbol × IrTy)) {Γ g st bs} {fs : List Ty}, VScope Δ vs Γ g st → Apart Δ Γ (pvs.map (·.1) ++ bs) →
    (∀ v ∈ vs, v ∉ pvs.map (·.1)) → (∀ p ∈ pvs, WfTy Δ vs p.2) → mapOpt (genTy g) (pvs.map (·.2)) = some (fs.map (replaceAll vars args)) →
    Room L g (g.genNames (pvs.map (·.1))).1 st →
    ∃ st', enterBinds L vars args st (g.genNames (pvs.map (·.1))).2 fs = some st' ∧
      VScope Δ vs ((pvs.map fun p => (p.1, Tic.Front.mono p.2)).reverse ++ Γ) (g.genNames (pvs.map (·.1))).1 st' ∧ Used g (g.genNames (pvs.map (·.1))).1 st st'
  | [], Γ, g, st, bs, fs, h, _, _, _, ht, _ => by
    simp only [List.map_nil, mapOpt, Option.some.injEq] at ht
    have : fs = [] := by simpa using ht.symm
    subst this
    exact ⟨st, by simp [Gen.genNames, enterBinds], by simpa [Gen.genNames] using h, .refl _ _⟩
  | p :: pvs, Γ, g, st, bs, fs, h, ha, hv, hw, ht, hr => by
    simp only [List.map_cons, mapOpt, Option.bind_eq_some_iff, Option.map_eq_some_iff] at ht
    obtain ⟨T, e1, Ts, e2, e3⟩ := ht
    cases fs with
    | nil => simp at e3
    | cons f fs =>
      simp only [List.map_cons, List.cons.injEq] at e3
      obtain ⟨rfl, rfl⟩ := e3
      have hl : Le (g.genName p.1).1 (g.genNames ((p :: pvs).map (·.1))).1 := by
        simp only [List.map_cons, Gen.genNames]
        exact le_genNames _ _
      have hlt : g.names < (g.genNames ((p :: pvs).map (·.1))).1.names := Nat.lt_of_lt_of_le (Nat.lt_succ_self _) hl.names
      have hnd : g.names ∉ st.defined := hr.names _ (Nat.le_refl _) hlt
      have hL : g.names < L := Nat.lt_of_lt_of_le hlt hr.limit
      have hp : Γ.find p.1 = none ∧ declOf Δ p.1 = none ∧ p.1 ∉ vs :=
        ⟨(ha.2 p.1 (by simp)).1, (ha.2 p.1 (by simp)).2, fun hx => hv p.1 hx (by simp)⟩
      have h1 := h.add (L := L) hp hnd (hw p (by simp)) e1 hL
      have u1 : Used g (g.genName p.1).1 st (st.bind g.names (replaceAll vars args f)) := bind_used (Nat.le_refl _) (Nat.lt_succ_self _)
      have ho : Older Δ vs g (g.genName p.1).1 := .ext h.gen (fun v hv => (h.scope.vars v hv).1) (ext_genName g p.1) (by simpa using hp.2)
      obtain ⟨st', f1, f2, f3⟩ := VScope.addBinds (L := L) (vars := vars) (args := args) pvs (bs := bs) h1 (Apart.add (by simpa using ha)) (fun v hvs hx => hv v hvs (by simp only [List.map_cons]; exact List.mem_cons_of_mem _ hx))
        (fun q hq => hw q (by simp [hq]))
        (by
          rw [← e2]
          refine mapOpt_congr fun t ht => ?_
          obtain ⟨q, hq, rfl⟩ := List.mem_map.mp ht
          exact (genTy_older ho (hw q (by simp [hq]))).symm)
        (hr.right (le_genName g p.1) u1)
      refine ⟨st', ?_, ?_, u1.trans (le_genName g p.1) hl f3⟩
      · simp only [List.map_cons, Gen.genNames, enterBinds]
        rw [show (g.genName p.1).2 = g.names from rfl, enter_some hL hnd]
        exact f1
      · simpa [Gen.genNames, List.append_assoc] using f2

/-- Entering fresh names for fields. -/
theorem enterBinds_fresh {L : Nat} {vars : List TyVar} {args : List Ty} : ∀ {ns : List Name} {fs : List Ty} {st : VSt}, ns.Nodup → (∀ n ∈ ns, n < L ∧ n ∉ st.defined) →
    ns.length = fs.length → ∃ st', enterBinds L vars args st ns fs = some st' ∧ (∀ (i : Nat) n f, ns[i]? = some n → fs[i]? = some f → vget n st'.types = some (replaceAll vars args f)) ∧
      (∀ n ∈ st'.defined, n ∈ st.defined ∨ n ∈ ns) ∧ st'.definedTy = st.definedTy ∧ (∀ x ∉ ns, vget x st'.types = vget x st.types)
  | [], [], st, _, _, _ => ⟨st, rfl, by simp, fun n h => .inl h, rfl, fun _ _ => rfl⟩
  | n :: ns, f :: fs, st, hn, h, hl => by
    have hn := List.nodup_cons.mp hn
    obtain ⟨h1, h2⟩ := h n (by simp)
    obtain ⟨st', e1, e2, e3, e4, e5⟩ := enterBinds_fresh (vars := vars) (args := args) (ns := ns) (fs := fs) (st := st.bind n (replaceAll vars args f)) hn.2
      (fun m hm => ⟨(h m (by simp [hm])).1, by
        simp only [VSt.bind, List.mem_cons, not_or]
        exact ⟨fun (e : m = n) => hn.1 (e ▸ hm), (h m (by simp [hm])).2⟩⟩) (by simpa using hl)
    refine ⟨st', ?_, ?_, ?_, e4, ?_⟩
    · simp only [enterBinds, enter_some h1 h2, Option.bind_some]
      exact e1
    · intro i m f' hi hf
      cases i with
      | zero =>
        simp only [List.getElem?_cons_zero, Option.some.injEq] at hi hf
        subst hi; subst hf
        rw [e5 n hn.1]
        simp [VSt.bind, vget_cons]
      | succ i => exact e2 i m f' (by simpa using hi) (by simpa using hf)
    · intro m hm
      rcases e3 m hm with h | h
      · simp only [VSt.bind, List.mem_cons] at h
        rcases h with rfl | h
        · simp
        · exact .inl h
      · simp [h]
    · intro x hx
      simp only [List.mem_cons, not_or] at hx
      rw [e5 x hx.2]
      simp only [VSt.bind, vget_cons, if_neg (fun e : n = x => hx.1 e.symm)]

end Tic.Front
