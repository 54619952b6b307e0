import Verif.VerExpr
/-
Verifying generated code: every well-typed expression is generated as code of its type.
-/
namespace Tic.Front
open Tic.Unify (Symbol IrTy)
open Tic.Core

theorem SMove.refl (st : VSt) : SMove st st := (Chk.refl (L := 0) st).move

theorem SMove.trans {a b c : VSt} (h : SMove a b) (hs : ∀ x ∈ a.defined, x ∈ b.defined) (h' : SMove b c) : SMove a c :=
  ⟨fun n hn => h'.scope n (h.scope n hn), fun x hx => (h'.types x (hs x hx)).trans (h.types x hx), fun n k hk => h'.kinds n k (h.kinds n k hk),
   fun n k hk => h'.ctors n k (h.ctors n k hk), fun a ha => h'.tys a (h.tys a ha), fun a ha => h'.scopeTy a (h.scopeTy a ha),
   fun a ha hx => h.back a ha (h'.back a (h.tys a ha) hx)⟩

/-- After generating and checking an expression. -/
theorem VScope.next {Δ vs Γ g st e g1 c st1} (hs : VScope Δ vs Γ g st) (ha : Apart Δ Γ (binderSyms e)) (hv : ∀ v ∈ vs, v ∉ binderSyms e)
    (he : genExpr g e = some (g1, c)) (hm : SMove st st1) (hp : Pre st1) : VScope Δ vs Γ g1 st1 ∧ ∀ t, WfTy Δ vs t → genTy g t = genTy g1 t :=
  ⟨hs.move (ext_genExpr e he) (fun b hb => ⟨(ha.2 b hb).1, (ha.2 b hb).2, fun h => hv b h hb⟩) hm hp,
   fun _ hw => genTy_older (.ext hs.gen (fun v hv => (hs.scope.vars v hv).1) (ext_genExpr e he) fun b hb => ⟨(ha.2 b hb).2, fun h => hv b h hb⟩) hw⟩

theorem genTy_of_move {Δ vs Γ g st bs g1 t} (hs : VScope Δ vs Γ g st) (he : Ext bs g g1) (hb : ∀ b ∈ bs, declOf Δ b = none ∧ b ∉ vs) (hw : WfTy Δ vs t) : genTy g t = genTy g1 t :=
  genTy_older (.ext hs.gen (fun v hv => (hs.scope.vars v hv).1) he hb) hw

/-- The expression is generated as code that passes the verifier with the right type. -/
def CheckE (Δ : List TypeDecl) (L : Nat) (vs : List Symbol) (g g' : Gen) (st : VSt) (t : IrTy) (c : Expr) : Prop :=
  ∃ T st', WfTy Δ vs t ∧ genTy g t = some T ∧ checkExpr L st c = some (T, st') ∧ Used g g' st st'

theorem opResult_gen (g : Gen) (o : Op) : genTy g (opTy o) = some (opResult o) := by cases o <;> rfl

theorem wf_opTy (Δ : List TypeDecl) (vs : List Symbol) (o : Op) : WfTy Δ vs (opTy o) := by cases o <;> simp [opTy, WfTy]

/-- The cases of a match on a value of a known type. -/
theorem match_cases {Δ vs Γ g st decl args recTy dty D b} (hs : VScope Δ vs Γ g st) (hd : declOf Δ decl.sym = some decl) (hl : args.length = decl.vars.length)
    (hw : WfTy Δ vs dty) (hf : dty = .named decl.sym args ∧ recTy = dty ∨ dty = .folded (.named decl.sym args) recTy) (hD : genTy g dty = some D)
    (hb : foldedMatch dty = some b) : ∃ nm us, D = .named nm us ∧ ∀ c fields, (c, fields) ∈ decl.ctors → ∃ k, g.ctors c = some k ∧
      CaseV g st b nm us k fields (fieldTy decl.vars args recTy) ∧ ∀ f ∈ fields, WfTy Δ vs (fieldTy decl.vars args recTy f) := by
  obtain ⟨n, m, DV⟩ := hs.decl _ _ hd
  have hwf : WfTys Δ vs args ∧ WfTy Δ vs recTy := by
    rcases hf with ⟨rfl, rfl⟩ | rfl
    · exact ⟨by simp only [WfTy] at hw; exact hw.2.2, hw⟩
    · simp only [WfTy] at hw; exact ⟨hw.1.2.2, hw.2⟩
  have fw : ∀ c fields, (c, fields) ∈ decl.ctors → ∃ k, g.ctors c = some k ∧ CtorV Δ g st decl n m fields k ∧ ∀ f ∈ fields, WfTy Δ vs (fieldTy decl.vars args recTy f) := by
    intro c fields hc
    obtain ⟨k, h1, h2⟩ := DV.ctors _ hc
    refine ⟨k, h1, h2, fun f hfs => ?_⟩
    cases f with
    | rec_ => exact hwf.2
    | ty t =>
      obtain ⟨Δ₀, h, ws, ts, e1, e2, -⟩ := h2.regular
      refine wf_inst hl hwf.1 (wf_sub e1.sub (fun v hv => by simp [hv]) (fun v hv => (e1.off v hv).2) (e2 t hfs).2)
  rcases hf with ⟨rfl, rfl⟩ | rfl
  · simp only [foldedMatch, Option.some.injEq] at hb
    subst hb
    simp only [genTy, hs.gen.notVar _ _ hd, DV.name, Option.bind_some, Option.map_eq_some_iff] at hD
    obtain ⟨us, hu, rfl⟩ := hD
    refine ⟨n, us, rfl, fun c fields hc => ?_⟩
    obtain ⟨k, h1, h2, h3⟩ := fw c fields hc
    exact ⟨k, h1, case_regular hs DV hd h2 hwf.1 hl hu, h3⟩
  · simp only [foldedMatch, Option.some.injEq] at hb
    subst hb
    simp only [genTy, hs.gen.notVar _ _ hd, DV.folded, Option.bind_some, Option.bind_eq_some_iff, Option.map_eq_some_iff] at hD
    obtain ⟨R, hr, us, hu, rfl⟩ := hD
    refine ⟨m, us ++ [R], rfl, fun c fields hc => ?_⟩
    obtain ⟨k, h1, h2, h3⟩ := fw c fields hc
    exact ⟨k, h1, case_folded hs h2 hwf.1 hl hu hr, h3⟩

theorem mapOpt_comp {α β γ : Type} {f : β → Option γ} {h : α → β} : ∀ (xs : List α), mapOpt f (xs.map h) = mapOpt (fun x => f (h x)) xs
  | [] => rfl
  | x :: xs => by simp only [List.map_cons, mapOpt, mapOpt_comp xs]

theorem lt_genName (g : Gen) (s : Symbol) : (g.names : Nat) < (g.genName s).1.names := Nat.lt_succ_self _

theorem enter_move {st : VSt} {n : Name} : SMove st { st with defined := n :: st.defined, inScope := n :: st.inScope } :=
  ⟨fun x hx => by simp [hx], fun x hx => rfl, fun _ _ h => h, fun _ _ h => h, fun _ h => h, fun _ h => h, fun _ _ h => h⟩

theorem enter_pre {st : VSt} {n : Name} (h : Pre st) : Pre { st with defined := n :: st.defined, inScope := n :: st.inScope } := by
  refine ⟨fun x hx => ?_, h.subTy⟩
  simp only [List.mem_cons] at hx ⊢
  exact hx.imp_right (h.sub x)

/-- A type is checked in a state with one more name. -/
theorem checkTy_entered {Δ : List TypeDecl} {vs Γ g st t T} {n : Name} (hs : VScope Δ vs Γ g st) (hw : WfTy Δ vs t) (hT : genTy g t = some T) :
    checkTy ({ st with defined := n :: st.defined, inScope := n :: st.inScope } : VSt) T = some { st with defined := n :: st.defined, inScope := n :: st.inScope } :=
  checkTy_gen (hs.move (Ext.refl [] g) (by simp) enter_move (enter_pre hs.pre)) hw hT

/-- The rebuilt parameter of a fold. -/
theorem check_foldParam {Δ : List TypeDecl} {L : Nat} {vs Γ g st a b ta tb fold temp g1 g2 pe} (hs : VScope Δ vs Γ g st) (hw : WfTy Δ vs a) (hf : IrTy.isFolded a = false) (ha : genTy g a = some ta)
    (hb : genTy g b = some tb) (h : foldParam fold temp ta tb g1 = some (g2, pe)) (hcf : g1.ctorFields = g.ctorFields) (htc : g1.typeCtors = g.typeCtors)
    (hfs : fold ∈ st.inScope) (hft : vget fold st.types = some (.fn [ta] tb)) (hts : temp ∈ st.inScope) (htt : vget temp st.types = some ta) (hr : Room L g1 g2 st) :
    ∃ TR st', genTy g (.folded a b) = some TR ∧ checkExpr L st pe = some (TR, st') ∧ Used g1 g2 st st' := by
  unfold foldParam at h
  split at h
  · rename_i n us
    obtain ⟨s, as, d, rfl, hd, hn⟩ := genTy_named hs.scope hw hf ha
    simp only [Option.bind_eq_some_iff, Option.map_eq_some_iff] at h
    obtain ⟨cs, h1, ⟨g3, bs⟩, h2, h⟩ := h
    cases h
    rw [htc] at h1
    have hsym := hs.gen.typeCtors_sym hd hn h1
    have hds := declOf_sym hd
    obtain ⟨n', m, D⟩ := hs.decl s d hd
    have hn' := D.name
    have hm' := D.folded
    rw [hds] at hn' hm'
    rw [hn] at hn'
    cases hn'
    simp only [genTy, hs.gen.notVar s d hd, hn, Option.bind_some, Option.map_eq_some_iff] at ha
    obtain ⟨us', hu, e⟩ := ha
    cases e
    simp only [WfTy] at hw
    have hl : as.length = d.vars.length := by rw [hw.2.1]; simp [arity, hd]
    have hd' : declOf Δ d.sym = some d := by rw [hds]; exact hd
    have ha : genTy g (.named s as) = some (.named n us) := by simp only [genTy, hs.gen.notVar s d hd, hn, Option.bind_some, hu, Option.map_some]
    have hcs : ∀ c ∈ cs, ∃ fields, g.ctorFields c.sym = some fields ∧ CaseV g { ctors := st.ctors } false n us c fields (fieldTy d.vars as (.named s as)) ∧
        CaseV g { ctors := st.ctors } true m (us ++ [tb]) c fields (fieldTy d.vars as b) := fun c hc => by
      obtain ⟨k, hk, hkc, -, hkf⟩ := hsym c hc
      obtain ⟨k', hk', hV⟩ := D.ctors k hk
      rw [hkc] at hk'
      cases hk'
      have c1 := case_folded hs hV hw.2.2 hl hu hb
      refine ⟨k.2, hkf, ?_, c1⟩
      have := case_regular hs D hd' hV hw.2.2 hl hu
      rw [hds] at this
      exact this
    obtain ⟨r, st', y1, y2, y3⟩ := check_foldBranches ha hb (acc := none) hs.pre rfl hcf hfs hft hcs h2 hr (.inl rfl)
    have hne : cs ≠ [] := by
      obtain ⟨n2, cs2, i1, i2, i3⟩ := hs.gen.name s d hd
      rw [hn] at i1; cases i1
      rw [h1] at i2; cases i2
      intro e
      have := mapOpt_tyVars_length i3
      rw [e] at this
      exact D.ne (List.eq_nil_of_length_eq_zero (by simpa using this.symm))
    rcases y3 with ⟨e, -⟩ | rfl
    · exact absurd e hne
    refine ⟨.named m (us ++ [tb]), st', ?_, ?_, y2⟩
    · simp only [genTy, hs.gen.notVar s d hd, hm', Option.bind_some, hu, hb, Option.map_some]
    · simp only [checkExpr, if_pos hts, htt, Option.bind_some, y1]
  · rename_i hx
    cases h
    refine ⟨ta, st, ?_, by simp only [checkExpr, if_pos hts, htt, Option.bind_some], .same⟩
    cases a with
    | named s as =>
      simp only [genTy] at ha ⊢
      split at ha
      · exact ha
      · simp only [Option.bind_eq_some_iff, Option.map_eq_some_iff] at ha
        obtain ⟨n, -, us, -, e⟩ := ha
        exact absurd e.symm (hx n us)
    | folded _ _ => simp [IrTy.isFolded] at hf
    | _ => simpa [genTy] using ha

mutual
theorem check_gen {Δ : List TypeDecl} {L : Nat} : ∀ (e : Ex IrTy) {vs Γ t g g' c st}, VScope Δ vs Γ g st → Apart Δ Γ (binderSyms e) → (∀ v ∈ vs, v ∉ binderSyms e) →
    PlainLets e → HasTy Δ vs Γ e t → genExpr g e = some (g', c) → Room L g g' st → CheckE Δ L vs g g' st t c
  | .name s inst, vs, Γ, t, g, g', c, st, hs, ha, hv, hp, h, hg, hr => by
    simp only [HasTy] at h
    obtain ⟨sch, h1, h2, h3, rfl⟩ := h
    simp only [genExpr, Option.bind_eq_some_iff, Option.map_eq_some_iff] at hg
    obtain ⟨n, e1, us, e2, hg⟩ := hg
    cases hg
    obtain ⟨T, f1, f2, f3⟩ := check_name (L := L) hs h1 h2 h3 e1 e2
    exact ⟨T, st, f1, f2, f3, .same⟩
  | .apply f a, vs, Γ, t, g, g', c, st, hs, ha, hv, hp, h, hg, hr => by
    simp only [HasTy] at h
    obtain ⟨u, h1, h2⟩ := h
    simp only [binderSyms] at ha hv
    simp only [PlainLets] at hp
    simp only [genExpr, Option.bind_eq_some_iff, Option.map_eq_some_iff] at hg
    obtain ⟨⟨g1, c1⟩, e1, ⟨g2, c2⟩, e2, hg⟩ := hg
    cases hg
    have l1 := le_genExpr f e1
    have l2 := le_genExpr a e2
    obtain ⟨T1, st1, w1, t1, k1, u1⟩ := check_gen f hs ha.left (fun v h hx => hv v h (by simp [hx])) hp.1 h1 e1 (hr.left l2)
    have C1 := (checkExpr_chk hs.pre k1).1
    obtain ⟨s1, q1⟩ := hs.next ha.left (fun v h hx => hv v h (by simp [hx])) e1 C1.move (C1.pre hs.pre)
    obtain ⟨T2, st2, w2, t2, k2, u2⟩ := check_gen a s1 ha.right (fun v h hx => hv v h (by simp [hx])) hp.2 h2 e2 (hr.right l1 u1)
    simp only [WfTy] at w1
    simp only [genTy, q1 u w2, t2, Option.bind_some, Option.map_eq_some_iff] at t1
    obtain ⟨B, t1, rfl⟩ := t1
    refine ⟨B, st2, w1.2, t1, ?_, u1.trans l1 l2 u2⟩
    simp only [checkExpr, k1, Option.bind_some, List.length_cons, List.length_nil, if_true, checkArgs, k2, fits_refl]
  | .binary o l r, vs, Γ, t, g, g', c, st, hs, ha, hv, hp, h, hg, hr => by
    simp only [HasTy] at h
    obtain ⟨h1, h2, rfl⟩ := h
    simp only [binderSyms] at ha hv
    simp only [PlainLets] at hp
    simp only [genExpr, Option.bind_eq_some_iff, Option.map_eq_some_iff] at hg
    obtain ⟨⟨g1, c1⟩, e1, ⟨g2, c2⟩, e2, hg⟩ := hg
    cases hg
    have l1 := le_genExpr l e1
    have l2 := le_genExpr r e2
    obtain ⟨T1, st1, w1, t1, k1, u1⟩ := check_gen l hs ha.left (fun v h hx => hv v h (by simp [hx])) hp.1 h1 e1 (hr.left l2)
    have C1 := (checkExpr_chk hs.pre k1).1
    obtain ⟨s1, q1⟩ := hs.next ha.left (fun v h hx => hv v h (by simp [hx])) e1 C1.move (C1.pre hs.pre)
    obtain ⟨T2, st2, w2, t2, k2, u2⟩ := check_gen r s1 ha.right (fun v h hx => hv v h (by simp [hx])) hp.2 h2 e2 (hr.right l1 u1)
    simp only [genTy, Option.some.injEq] at t1 t2
    subst t1 t2
    refine ⟨opResult o, st2, wf_opTy _ _ o, opResult_gen g o, ?_, u1.trans l1 l2 u2⟩
    simp only [checkExpr, k1, Option.bind_some, if_true, k2, fits_refl]
  | .pipe l r, vs, Γ, t, g, g', c, st, hs, ha, hv, hp, h, hg, hr => by
    simp only [HasTy] at h
    obtain ⟨u, h1, h2⟩ := h
    simp only [binderSyms] at ha hv
    simp only [PlainLets] at hp
    simp only [genExpr, Option.bind_eq_some_iff, Option.map_eq_some_iff] at hg
    obtain ⟨⟨g1, c1⟩, e1, ⟨g2, c2⟩, e2, hg⟩ := hg
    cases hg
    have l1 := le_genExpr l e1
    have l2 := le_genExpr r e2
    obtain ⟨s1, q1⟩ := hs.next ha.left (fun v h hx => hv v h (by simp [hx])) e1 (.refl st) hs.pre
    obtain ⟨T2, st2, w2, t2, k2, u2⟩ := check_gen r s1 ha.right (fun v h hx => hv v h (by simp [hx])) hp.2 h2 e2 (hr.mid l1 (.refl _))
    have C2 := (checkExpr_chk hs.pre k2).1
    obtain ⟨T1, st1, w1, t1, k1, u1⟩ := check_gen l (hs.move (Ext.refl [] g) (by simp) C2.move (C2.pre hs.pre)) ha.left (fun v h hx => hv v h (by simp [hx])) hp.1 h1 e1
      ((hr.mid (.refl _) l2).down u2 (.refl _))
    simp only [WfTy] at w2
    simp only [genTy, ← q1 u w1, t1, Option.bind_some, Option.map_eq_some_iff] at t2
    obtain ⟨B, t2, rfl⟩ := t2
    refine ⟨B, st1, w2.2, by rw [q1 t w2.2]; exact t2, ?_, (u2.wide l1 (.refl _)).join (u1.wide (.refl _) l2)⟩
    simp only [checkExpr, k2, Option.bind_some, List.length_cons, List.length_nil, if_true, checkArgs, k1, fits_refl]
  | .let_ s vars ann ty v rest, vs, Γ, t, g, g', c, st, hs, ha, hv, hp, h, hg, hr => by
    simp only [HasTy] at h
    obtain ⟨i1, i2, hvs, hw, h1, h2⟩ := h
    simp only [binderSyms] at ha hv
    simp only [PlainLets] at hp
    simp only [genExpr, Option.bind_eq_some_iff, Option.map_eq_some_iff] at hg
    obtain ⟨⟨g1, c1⟩, e1, tvs, e2, ⟨g3, c3⟩, e3, hg⟩ := hg
    cases hg
    have hvars := ha.tail.left
    have hn : vars.Nodup := hvars.1
    have aV := ha.tail.right.left
    have avs : ∀ x ∈ vars, x ∉ binderSyms v := fun x hx hb => (List.nodup_append.mp ha.tail.1).2.2 x hx x (by simp [hb]) rfl
    have l0 : Le g (g.genName s).1 := le_genName g s
    have l1 := le_freshInst vars (g.genName s).1
    have l2 := le_genExpr v e1
    have l3 := le_genExpr rest e3
    have l13 := l1.trans (l2.trans l3)
    have s0 : VScope Δ vs Γ (g.genName s).1 st := hs.move (ext_genName g s)
      (by intro b hb; rw [List.mem_singleton.mp hb]; exact ⟨(ha.2 s (by simp)).1, (ha.2 s (by simp)).2, fun h => hv s h (by simp)⟩) (.refl st) hs.pre
    obtain ⟨m1, m2⟩ := freshInst_vars (g := (g.genName s).1) hn
    have hws : ∀ w ∈ List.range' (g.genName s).1.tys vars.length, (g.genName s).1.tys ≤ w ∧ w < ((g.genName s).1.freshInst vars).tys := fun w hw => by
      rw [List.mem_range'_1] at hw; rw [m2]; exact hw
    have hfr : ∀ w ∈ List.range' (g.genName s).1.tys vars.length, w ∉ st.definedTy := fun w hw =>
      hr.tys w (Nat.le_trans l0.tys (hws w hw).1) (Nat.lt_of_lt_of_le (hws w hw).2 (l2.trans l3).tys)
    have s1 := s0.types hn (fun x hx => ⟨(hvars.2 x hx).1, (hvars.2 x hx).2, fun h => hv x h (by simp [hx])⟩) hfr
    have W := withTys_spec (List.range' (g.genName s).1.tys vars.length) st
    have u0 : Used (g.genName s).1 ((g.genName s).1.freshInst vars) st (st.withTys (List.range' (g.genName s).1.tys vars.length)) := by
      refine ⟨fun n hn => .inl (W.1 ▸ hn), fun a ha => ?_⟩
      exact ((W.2.2.2.2.2.1 a).mp ha).elim (fun h => .inr (hws a h)) .inl
    have r0 : Room L (g.genName s).1 g3 st := hr.mid l0 (.refl _)
    obtain ⟨T1, st1, w1, t1, k1, u1⟩ := check_gen v s1 aV
      (fun x hx hb => (List.mem_append.mp hx).elim (fun h => avs x h hb) fun h => hv x h (by simp [hb])) hp.2.1 h1 e1 ((r0.right l1 u0).left l3)
    have u01 : Used (g.genName s).1 g1 st st1 := u0.trans l1 l2 u1
    obtain ⟨st2, k2, d1, d2⟩ := check_pis (L := L) List.nodup_range' hfr hs.pre k1
    have C2 := (checkExpr_chk hs.pre k2).1
    have u2 : Used (g.genName s).1 g1 st st2 := u01.exit d1 d2
    have C1 := (checkExpr_chk s1.pre k1).1
    have hmx : mapOpt g1.tyVars vars = some (List.range' (g.genName s).1.tys vars.length) := by
      rw [← m1]
      exact mapOpt_congr fun x hx => (ext_genExpr v e1).ty x (avs x hx)
    have htv : tvs = List.range' (g.genName s).1.tys vars.length := by rw [hmx] at e2; exact (Option.some.inj e2).symm
    subst htv
    have hb0 : ∀ b ∈ vars, Γ.find b = none ∧ declOf Δ b = none ∧ b ∉ vs := fun x hx => ⟨(hvars.2 x hx).1, (hvars.2 x hx).2, fun h => hv x h (by simp [hx])⟩
    have s2 : VScope Δ vs Γ ((g.genName s).1.freshInst vars) st := s0.move (ext_freshInst vars _) hb0 (.refl st) hs.pre
    have hb1 : ∀ b ∈ binderSyms v, Γ.find b = none ∧ declOf Δ b = none ∧ b ∉ vs := fun x hx => ⟨(aV.2 x hx).1, (aV.2 x hx).2, fun h => hv x h (by simp [hx])⟩
    have s3 : VScope Δ vs Γ g1 st2 := s2.move (ext_genExpr v e1) hb1 C2.move (C2.pre hs.pre)
    have hsym : g1.symNames s = some g.names := by
      have hsb : s ∉ vars ++ (binderSyms v ++ binderSyms rest) := (List.nodup_cons.mp ha.1).1
      rw [(ext_genExpr v e1).sym s (fun h => hsb (by simp [h])), (ext_freshInst vars _).sym s (fun h => hsb (by simp [h]))]
      simp [Gen.genName, setAt]
    have hgn : g.names ∉ st2.defined := fun hx => by
      rcases u2.names _ hx with hx | ⟨hx, -⟩
      · exact hr.names g.names (Nat.le_refl _) (Nat.lt_of_lt_of_le (lt_genName g s) l13.names) hx
      · exact Nat.not_le_of_lt (lt_genName g s) hx
    have hsch : SchV Δ vs g1 st2 ⟨vars, ty⟩ (absTys (List.range' (g.genName s).1.tys vars.length) T1) := by
      refine ⟨Δ, vs, (g.genName s).1.freshInst vars, _, T1, ⟨fun _ _ h => h, fun _ h => h,
        .ext s2.gen (fun v hv => (s2.scope.vars v hv).1) (ext_genExpr v e1) (fun b hb => (hb1 b hb).2), fun x hx => hvs x hx, m1, List.nodup_range', fun w hw => ⟨?_, fun hx => ?_⟩⟩, hw, t1, rfl, ?_⟩
      · rw [d2]
        exact C1.tys w ((W.2.2.2.2.2.1 w).mpr (.inl hw))
      · rw [C2.inScopeTy] at hx
        exact hfr w hw (hs.pre.subTy w hx)
      · cases ann with
        | none => exact .inl (i2 rfl)
        | some a => rw [i1 a rfl]; exact .inr (hp.1 a rfl)
    have s4 := s3.bind hsym hgn hsch
    have l01 : Le (g.genName s).1 g1 := l1.trans l2
    have ltL : g.names < L := Nat.lt_of_lt_of_le (lt_genName g s) (Nat.le_trans l13.names hr.limit)
    have hE := bind_entered (T := absTys (List.range' (g.genName s).1.tys vars.length) T1) ltL hgn
    have r1 : Room L g1 g3 (st2.bind g.names (absTys (List.range' (g.genName s).1.tys vars.length) T1)) :=
      (r0.right l01 u2).up (bind_used (g := g) (g' := (g.genName s).1) (Nat.le_refl _) (lt_genName g s)) l01
    have a4 := ha.add (sch := ⟨vars, ty⟩)
    obtain ⟨T3, st3, w3, t3, k3, u3⟩ := check_gen rest s4 a4.right.right (fun x hx hb => hv x hx (by simp [hb])) hp.2.2 h2 e3 r1
    have C3 := (checkExpr_chk s4.pre k3).1
    obtain ⟨st4, k4, d3, d4⟩ := exit_some (n := g.names) (st := st3) (by rw [C3.inScope]; simp [VSt.bind])
    have q : genTy g t = genTy g1 t := by
      rw [genTy_of_move hs (ext_genName g s) (by intro b hb; rw [List.mem_singleton.mp hb]; exact ⟨(ha.2 s (by simp)).2, fun h => hv s h (by simp)⟩) w3,
        genTy_of_move s0 (ext_freshInst vars _) (fun b hb => (hb0 b hb).2) w3, genTy_of_move s2 (ext_genExpr v e1) (fun b hb => (hb1 b hb).2) w3]
    refine ⟨T3, st4, w3, by rw [q]; exact t3, ?_, ?_⟩
    · have ke := enter_some (L := L) (st := st2.setTy g.names (absTys (List.range' (g.genName s).1.tys vars.length) T1)) ltL hgn
      simp only [checkExpr]
      rw [show (g.genName s).2 = g.names from rfl, k2]
      simp only [Option.bind_some, ke]
      show ((checkExpr L (st2.bind g.names _) c3).bind _) = _
      rw [k3]
      simp only [Option.bind_some, k4]
    · refine Used.exit ?_ d3 d4
      refine (u2.wide l0 l3).join (Used.join ?_ (u3.wide (l0.trans l01) (.refl _)))
      exact (bind_used (g := g) (g' := (g.genName s).1) (Nat.le_refl _) (lt_genName g s)).wide (.refl _) l13
  | .match_ d dty cases, vs, Γ, t, g, g', c, st, hs, ha, hv, hp, h, hg, hr => by
    simp only [HasTy] at h
    obtain ⟨h1, hw, decl, args, recTy, hd, hl, hdty, hcov, h2⟩ := h
    simp only [binderSyms] at ha hv
    simp only [PlainLets] at hp
    simp only [genExpr, Option.bind_eq_some_iff, Option.map_eq_some_iff] at hg
    obtain ⟨⟨g1, c1⟩, e1, b, hb, ⟨g2, c2⟩, e2, hg⟩ := hg
    cases hg
    have l1 := le_genExpr d e1
    have l2 := le_genCases cases e2
    obtain ⟨T1, st1, w1, t1, k1, u1⟩ := check_gen d hs ha.left (fun v h hx => hv v h (by simp [hx])) hp.1 h1 e1 (hr.left l2)
    have C1 := (checkExpr_chk hs.pre k1).1
    obtain ⟨s1, q1⟩ := hs.next ha.left (fun v h hx => hv v h (by simp [hx])) e1 C1.move (C1.pre hs.pre)
    rw [q1 _ w1] at t1
    obtain ⟨nm, us, rfl, -⟩ := match_cases s1 hd hl hw hdty t1 hb
    obtain ⟨r, st2, k2, u2, hc⟩ := check_genCases cases s1 ha.right (fun v h hx => hv v h (by simp [hx])) hp.2 hd hl hw hdty t1 hb h2 e2 (hr.right l1 u1) (.inl rfl)
    have hne : cases ≠ [] := by
      obtain ⟨n, m, D⟩ := hs.decl _ _ hd
      obtain ⟨x, hx⟩ := List.exists_mem_of_ne_nil _ D.ne
      obtain ⟨k, hk, -⟩ := hcov x hx
      exact fun h => by rw [h] at hk; simp at hk
    rcases hc with ⟨h, -⟩ | ⟨T, w3, t3, rfl⟩
    · exact absurd h hne
    · refine ⟨T, st2, w3, by rw [q1 t w3]; exact t3, ?_, u1.trans l1 l2 u2⟩
      simp only [checkExpr, k1, Option.bind_some, k2]
  | .ite a b e, vs, Γ, t, g, g', c, st, hs, ha, hv, hp, h, hg, hr => by
    simp only [HasTy] at h
    obtain ⟨h1, h2, h3⟩ := h
    simp only [binderSyms] at ha hv
    simp only [PlainLets] at hp
    simp only [genExpr, Option.bind_eq_some_iff, Option.map_eq_some_iff] at hg
    obtain ⟨⟨g1, c1⟩, e1, ⟨g2, c2⟩, e2, ⟨g3, c3⟩, e3, hg⟩ := hg
    cases hg
    have l1 := le_genExpr a e1
    have l2 := le_genExpr b e2
    have l3 := le_genExpr e e3
    obtain ⟨T1, st1, w1, t1, k1, u1⟩ := check_gen a hs ha.left (fun v h hx => hv v h (by simp [hx])) hp.1 h1 e1 (hr.left (l2.trans l3))
    have C1 := (checkExpr_chk hs.pre k1).1
    obtain ⟨s1, q1⟩ := hs.next ha.left (fun v h hx => hv v h (by simp [hx])) e1 C1.move (C1.pre hs.pre)
    have r1 := hr.right l1 u1
    obtain ⟨T2, st2, w2, t2, k2, u2⟩ := check_gen b s1 ha.right.left (fun v h hx => hv v h (by simp [hx])) hp.2.1 h2 e2 (r1.left l3)
    have C2 := (checkExpr_chk s1.pre k2).1
    obtain ⟨s2, q2⟩ := s1.next ha.right.left (fun v h hx => hv v h (by simp [hx])) e2 C2.move (C2.pre s1.pre)
    obtain ⟨T3, st3, w3, t3, k3, u3⟩ := check_gen e s2 ha.right.right (fun v h hx => hv v h (by simp [hx])) hp.2.2 h3 e3 (r1.right l2 u2)
    rw [← q2 t w2, t2] at t3
    cases t3
    simp only [genTy, Option.some.injEq] at t1
    subst t1
    refine ⟨T2, st3, w2, by rw [q1 t w2]; exact t2, ?_, u1.trans l1 (l2.trans l3) (u2.trans l2 l3 u3)⟩
    simp only [checkExpr, k1, Option.bind_some, if_true, k2, k3, fits_refl, tyEq_refl]
  | .bool _, vs, Γ, t, g, g', c, st, hs, ha, hv, hp, h, hg, hr | .number _, vs, Γ, t, g, g', c, st, hs, ha, hv, hp, h, hg, hr
  | .str _, vs, Γ, t, g, g', c, st, hs, ha, hv, hp, h, hg, hr => by
    simp only [HasTy] at h
    subst h
    simp only [genExpr] at hg
    cases hg
    exact ⟨_, st, by simp [WfTy], rfl, rfl, .same⟩
  | .lambda true p pty fty body, vs, Γ, t, g, g', c, st, hs, ha, hv, hp, h, hg, hr => by
    simp only [HasTy] at h
    obtain ⟨rfl, hw, a, b, rfl, hf, rfl, h1⟩ := h
    simp only [binderSyms] at ha hv
    simp only [PlainLets] at hp
    rw [WfTy] at hw
    have hwf : WfTy Δ vs (.folded a b) := by rw [WfTy]; exact hw
    simp only [genExpr, genTy, Option.bind_eq_some_iff, Option.map_eq_some_iff] at hg
    obtain ⟨_, ⟨ta, ta1, tb, tb1, rfl⟩, hg⟩ := hg
    simp only [Option.bind_eq_some_iff, Option.map_eq_some_iff] at hg
    obtain ⟨⟨g1, c1⟩, e1, ⟨g2, pe⟩, e2, hg⟩ := hg
    cases hg
    have l0 : Le g (g.genName p).1.fresh.1.fresh.1 := ((le_genName g p).trans (le_fresh _)).trans (le_fresh _)
    have l1 := le_genExpr body e1
    have l2 := le_foldParam e2
    have lim : (g.genName p).1.fresh.1.fresh.1.names ≤ L := Nat.le_trans (l1.trans l2).names hr.limit
    have z1 : ((g.names : Nat) + 1) < (g.genName p).1.fresh.1.fresh.1.names := Nat.lt_succ_of_lt (Nat.lt_succ_self _)
    have z2 : ((g.names : Nat) + 2) < (g.genName p).1.fresh.1.fresh.1.names := Nat.lt_succ_self _
    have z0 : (g.names : Nat) < (g.genName p).1.fresh.1.fresh.1.names := Nat.lt_trans (Nat.lt_succ_self _) z1
    have hx : ∀ n : Name, g.names ≤ n → n < (g.genName p).1.fresh.1.fresh.1.names → n ∉ st.defined := fun n h1 h2 =>
      hr.names n h1 (Nat.lt_of_lt_of_le h2 (l1.trans l2).names)
    have f2 : (g.names + 2 : Nat) ∉ st.defined := hx _ (Nat.le_add_right _ _) z2
    have sA := hs.move (Ext.refl [] g) (by simp) (bind_move (T := .fn [ta] tb) f2) (bind_pre hs.pre)
    have f1 : (g.names + 1 : Nat) ∉ (st.bind (g.names + 2 : Nat) (.fn [ta] tb)).defined := by
      simp only [VSt.bind, List.mem_cons, not_or]
      exact ⟨fun (e : (g.names + 1 : Nat) = (g.names + 2 : Nat)) => absurd e (Nat.ne_of_lt (Nat.lt_succ_self _)), hx _ (Nat.le_add_right _ _) z1⟩
    have sB := sA.move (Ext.refl [] g) (by simp) (bind_move (T := ta) f1) (bind_pre sA.pre)
    have EA := bind_entered (T := .fn [ta] tb) (Nat.lt_of_lt_of_le z2 lim) f2
    have EB := bind_entered (T := ta) (Nat.lt_of_lt_of_le z1 lim) f1
    have bA : Used g (g.genName p).1.fresh.1.fresh.1 st (st.bind (g.names + 2 : Nat) (.fn [ta] tb)) := bind_used (Nat.le_add_right _ _) z2
    have bB : Used g (g.genName p).1.fresh.1.fresh.1 (st.bind (g.names + 2 : Nat) (.fn [ta] tb)) ((st.bind (g.names + 2 : Nat) (.fn [ta] tb)).bind (g.names + 1 : Nat) ta) :=
      bind_used (Nat.le_add_right _ _) z1
    have bAB := bA.join bB
    generalize hSA : st.bind (g.names + 2 : Nat) (.fn [ta] tb) = SA at *
    generalize hSB : SA.bind (g.names + 1 : Nat) ta = SB at *
    have fB : (g.names + 2 : Nat) ∈ SB.inScope ∧ vget (g.names + 2 : Nat) SB.types = some (.fn [ta] tb) ∧ (g.names + 1 : Nat) ∈ SB.inScope ∧ vget (g.names + 1 : Nat) SB.types = some ta := by
      subst hSB hSA
      simp only [VSt.bind, vget_cons, List.mem_cons]
      refine ⟨by simp, ?_, by simp, by simp⟩
      rw [if_neg (fun (e : (g.names + 1 : Nat) = (g.names + 2 : Nat)) => absurd e (Nat.ne_of_lt (Nat.lt_succ_self _)))]
      simp
    have rAll : Room L (g.genName p).1.fresh.1.fresh.1 g2 SB := hr.right l0 bAB
    obtain ⟨TR, SC, tR, kR, uR⟩ := check_foldParam (L := L) sB hw.1 hf ta1 tb1 e2 (ext_genExpr body e1).fields (ext_genExpr body e1).typeCtors fB.1 fB.2.1 fB.2.2.1 fB.2.2.2 (rAll.mid l1 (.refl _))
    have CC := (checkExpr_chk sB.pre kR).1
    have sC := sB.move (Ext.refl [] g) (by simp) CC.move (CC.pre sB.pre)
    have uC : Used g g2 st SC := (bAB.wide (.refl _) (l1.trans l2)).join (uR.wide (l0.trans l1) (.refl _))
    have f0 : (g.names : Nat) ∉ SC.defined := fun hm => by
      rcases uR.names _ hm with hm | ⟨hm, -⟩
      · subst hSB hSA
        simp only [VSt.bind, List.mem_cons] at hm
        rcases hm with hm | hm | hm
        · exact absurd hm (Nat.ne_of_lt (Nat.lt_succ_self _))
        · exact absurd hm (Nat.ne_of_lt (Nat.lt_add_of_pos_right (by decide)))
        · exact hx _ (Nat.le_refl _) z0 hm
      · exact Nat.not_le_of_lt (Nat.lt_of_lt_of_le z0 l1.names) hm
    have s1 := sC.add (L := L) (s := p) ⟨(ha.2 p (by simp)).1, (ha.2 p (by simp)).2, fun h => hv p h (by simp)⟩ f0 hwf tR (Nat.lt_of_lt_of_le z0 lim)
    have E0 := bind_entered (T := TR) (Nat.lt_of_lt_of_le z0 lim) f0
    have b0 : Used g (g.genName p).1.fresh.1.fresh.1 SC (SC.bind g.names TR) := bind_used (Nat.le_refl _) z0
    have s2 := (s1.move (ext_fresh _) (by simp) (.refl _) s1.pre).move (ext_fresh _) (by simp) (.refl _) s1.pre
    have rb : Room L (g.genName p).1.fresh.1.fresh.1 g1 (SC.bind g.names TR) := ((rAll.mid (.refl _) l2).down uR (.refl _)).up b0 (.refl _)
    obtain ⟨B, SE, w1, t1, k1, u1⟩ := check_gen body s2 ha.add (fun v h hx => hv v h (by simp [hx])) hp h1 e1 rb
    have CE := (checkExpr_chk s2.pre k1).1
    have hB : B = tb := by
      have e := genTy_of_move hs (ext_genName g p) (by intro b hb; rw [List.mem_singleton.mp hb]; exact ⟨(ha.2 p (by simp)).2, fun h => hv p h (by simp)⟩) w1
      have e' := (genTy_of_move (s1.move (Ext.refl [] _) (by simp) (.refl _) s1.pre) (ext_fresh (g.genName p).1) (by simp) w1).trans
        (genTy_of_move (s1.move (ext_fresh _) (by simp) (.refl _) s1.pre) (ext_fresh (g.genName p).1.fresh.1) (by simp) w1)
      rw [← e', ← e, tb1] at t1
      exact (Option.some.inj t1).symm
    subst hB
    obtain ⟨SF, k2, d1, d2⟩ := exit_some (n := g.names) (st := SE) (by rw [CE.inScope]; simp [VSt.bind])
    have CF := E0.leave (CC.pre sB.pre) CE (by rw [exits_one]; exact k2)
    have CBF := CC.trans CF
    have EB' : Entered L SA SB [(g.names + 1 : Nat)] [ta] := EB
    obtain ⟨SG, k3, d3, d4⟩ := exits_some (ns := [(g.names + 1 : Nat)]) (st := SF) (by simp) (by
      intro n hn; rw [CBF.inScope, EB'.inScope]; simp at hn; simp [hn])
    have CAG := EB'.leave sA.pre CBF k3
    have gF : (g.names + 2 : Nat) ∈ SG.inScope := by rw [CAG.inScope, EA.inScope]; simp
    have gT : vget (g.names + 2 : Nat) SG.types = some (.fn [ta] B) := by
      rw [CAG.types _ (by subst hSA; simp [VSt.bind])]
      subst hSA
      simp [VSt.bind, vget_cons]
    obtain ⟨SH, k4, d5, d6⟩ := exit_some (n := (g.names + 2 : Nat)) (st := SG) gF
    have uE : Used g g2 st SE := uC.join ((b0.wide (.refl _) (l1.trans l2)).join (u1.wide l0 l2))
    refine ⟨.fn [ta] B, SH, by simp only [WfTy]; exact hw, by simp only [genTy, ta1, tb1, Option.bind_some, Option.map_some], ?_, ((uE.exit d1 d2).exit d3 d4).exit d5 d6⟩
    have hty : checkTy st (.fn [ta] B) = some st := checkTy_gen (t := .fn a b) hs (by simp only [WfTy]; exact hw) (by simp only [genTy, ta1, tb1, Option.bind_some, Option.map_some])
    have hty2 := checkTy_entered (n := (g.names + 1 : Nat)) sA hw.1 ta1
    have kA := enter_some (L := L) (Nat.lt_of_lt_of_le z2 lim) f2
    have kB := enter_some (L := L) (Nat.lt_of_lt_of_le z1 lim) f1
    have k0 := enter_some (L := L) (st := SC.setTy g.names TR) (Nat.lt_of_lt_of_le z0 lim) f0
    simp only [checkExpr, hty, Option.bind_some]
    rw [show (g.genName p).1.fresh.1.fresh.2 = (g.names + 2 : Nat) from rfl, show (g.genName p).1.fresh.2 = (g.names + 1 : Nat) from rfl, show (g.genName p).2 = g.names from rfl, kA]
    simp only [Option.bind_some]
    rw [show VSt.setTy { st with defined := (g.names + 2 : Nat) :: st.defined, inScope := (g.names + 2 : Nat) :: st.inScope } (g.names + 2 : Nat) (.fn [ta] B) = SA from hSA]
    simp only [enterPs, kB, Option.bind_some, hty2]
    rw [show VSt.setTy { SA with defined := (g.names + 1 : Nat) :: SA.defined, inScope := (g.names + 1 : Nat) :: SA.inScope } (g.names + 1 : Nat) ta = SB from hSB, kR]
    simp only [Option.bind_some, k0]
    have k1' : checkExpr L { SC.setTy g.names TR with defined := g.names :: (SC.setTy g.names TR).defined, inScope := g.names :: (SC.setTy g.names TR).inScope } c1 = some (B, SE) := k1
    rw [k1']
    simp only [Option.bind_some, k2, List.map_cons, List.map_nil, k3, fits_refl, if_true, if_pos gF, gT, k4]
  | .lambda false p pty fty body, vs, Γ, t, g, g', c, st, hs, ha, hv, hp, h, hg, hr => by
    simp only [HasTy] at h
    obtain ⟨rfl, hw, b, rfl, h1⟩ := h
    simp only [binderSyms] at ha hv
    simp only [PlainLets] at hp
    simp only [genExpr, Gen.instTy, Gen.freshInst, mapOpt, Option.map_some, Option.bind_eq_some_iff, Option.map_eq_some_iff] at hg
    obtain ⟨⟨g1, c1⟩, e1, ⟨g2, c2⟩, ⟨T, hT, hg2⟩, hg⟩ := hg
    cases hg
    cases hg2
    have l1 := le_genExpr body e1
    have l0 := le_genName g p
    have hn : g.names ∉ st.defined := hr.names _ (Nat.le_refl _) (Nat.lt_of_lt_of_le (lt_genName g p) l1.names)
    have ltL : g.names < L := Nat.lt_of_lt_of_le (lt_genName g p) (Nat.le_trans l1.names hr.limit)
    have hb0 : ∀ b ∈ [p], Γ.find b = none ∧ declOf Δ b = none ∧ b ∉ vs := by
      intro b hb; rw [List.mem_singleton.mp hb]; exact ⟨(ha.2 p (by simp)).1, (ha.2 p (by simp)).2, fun h => hv p h (by simp)⟩
    have s0 : VScope Δ vs Γ (g.genName p).1 st := hs.move (ext_genName g p) hb0 (.refl st) hs.pre
    have hb1 : ∀ b ∈ binderSyms body, declOf Δ b = none ∧ b ∉ vs := fun x hx => ⟨(ha.2 x (by simp [hx])).2, fun h => hv x h (by simp [hx])⟩
    have q : ∀ t, WfTy Δ vs t → genTy g t = genTy (g.genName p).1 t := fun t hw => genTy_of_move hs (ext_genName g p) (fun b hb => (hb0 b hb).2) hw
    have hT' : genTy g pty = some T := by rw [q _ hw, genTy_of_move s0 (ext_genExpr body e1) hb1 hw]; exact hT
    have s1 := hs.add (L := L) (hb0 p (by simp)) hn hw hT' ltL
    have bu : Used g (g.genName p).1 st (st.bind g.names T) := bind_used (Nat.le_refl _) (lt_genName g p)
    obtain ⟨B, st1, w1, t1, k1, u1⟩ := check_gen body s1 ha.add (fun v h hx => hv v h (by simp [hx])) hp h1 e1 (hr.right l0 bu)
    have C1 := (checkExpr_chk s1.pre k1).1
    obtain ⟨st2, k2, d1, d2⟩ := exits_some (ns := [g.names]) (st := st1) (by simp) (by rw [C1.inScope]; simp [VSt.bind])
    refine ⟨.fn [T] B, st2, by simp [WfTy, hw, w1], ?_, ?_, (bu.trans l0 l1 u1).exit d1 d2⟩
    · simp only [genTy, hT', q _ w1, t1, Option.bind_some, Option.map_some]
    · have hc := checkTy_entered (n := g.names) hs hw hT'
      simp only [checkExpr, enterPs, Gen.genName, enter_some ltL hn, Option.bind_some, absTys, List.foldr, hc]
      show ((checkExpr L (st.bind g.names T) c1).bind _) = _
      rw [k1]
      simp only [Option.bind_some, List.map_cons, List.map_nil, k2]
  | .paren e, vs, Γ, t, g, g', c, st, hs, ha, hv, hp, h, hg, hr => by
    simp only [HasTy] at h
    simp only [binderSyms] at ha hv
    simp only [PlainLets] at hp
    simp only [genExpr] at hg
    exact check_gen e hs ha hv hp h hg hr
  | .hole text ty, vs, Γ, t, g, g', c, st, hs, ha, hv, hp, h, hg, hr => by
    simp only [HasTy] at h
    obtain ⟨rfl, hw⟩ := h
    simp only [genExpr, Option.map_eq_some_iff] at hg
    obtain ⟨T, hT, hg⟩ := hg
    cases hg
    exact ⟨T, st, hw, hT, by simp only [checkExpr, checkTy_gen hs hw hT, Option.bind_some], .same⟩
theorem check_genCases {Δ : List TypeDecl} {L : Nat} : ∀ (cs : List (Case IrTy)) {vs Γ t g g' bs st decl args recTy dty nm us b acc}, VScope Δ vs Γ g st → Apart Δ Γ (casesBinderSyms cs) →
    (∀ v ∈ vs, v ∉ casesBinderSyms cs) → PlainLetsCases cs → declOf Δ decl.sym = some decl → args.length = decl.vars.length → WfTy Δ vs dty →
    (dty = .named decl.sym args ∧ recTy = dty ∨ dty = .folded (.named decl.sym args) recTy) → genTy g dty = some (.named nm us) → foldedMatch dty = some b →
    HasCases Δ vs Γ decl args recTy cs t → genCases b g cs = some (g', bs) → Room L g g' st → (acc = none ∨ ∃ T, acc = some T ∧ genTy g t = some T) →
    ∃ r st', checkBranches L nm us st acc bs = some (r, st') ∧ Used g g' st st' ∧ (cs = [] ∧ r = acc ∨ ∃ T, WfTy Δ vs t ∧ genTy g t = some T ∧ r = some T)
  | [], vs, Γ, t, g, g', bs, st, decl, args, recTy, dty, nm, us, b, acc, hs, ha, hv, hp, hd, hl, hw, hdty, hD, hb, h, hg, hr, hacc => by
    simp only [genCases] at hg
    cases hg
    exact ⟨acc, st, rfl, .same, .inl ⟨rfl, rfl⟩⟩
  | .mk c pvs body :: cs, vs, Γ, t, g, g', bs, st, decl, args, recTy, dty, nm, us, b, acc, hs, ha, hv, hp, hd, hl, hw, hdty, hD, hb, h, hg, hr, hacc => by
    simp only [HasCases] at h
    obtain ⟨⟨fields, hc, hpf⟩, h1, h2⟩ := h
    simp only [casesBinderSyms] at ha hv
    simp only [PlainLetsCases] at hp
    simp only [genCases, Option.bind_eq_some_iff, Option.map_eq_some_iff] at hg
    obtain ⟨⟨g1, c1⟩, e1, cn, hcn, ⟨g2, c2⟩, e2, hg⟩ := hg
    cases hg
    have l0 := le_genNames (pvs.map (·.1)) g
    have l1 := le_genExpr body e1
    have l2 := le_genCases cs e2
    obtain ⟨nm', us', hnu, hk⟩ := match_cases hs hd hl hw hdty hD hb
    cases hnu
    obtain ⟨k, hk1, ⟨ws, ts, hk2, hk3, hk4⟩, hk5⟩ := hk c fields hc
    have hpw : ∀ p ∈ pvs, WfTy Δ vs p.2 := fun p hp => by
      have : p.2 ∈ fields.map (fieldTy decl.vars args recTy) := by rw [← hpf]; exact List.mem_map_of_mem hp
      obtain ⟨f, hf, e⟩ := List.mem_map.mp this
      rw [← e]; exact hk5 f hf
    have hmo : mapOpt (genTy g) (pvs.map (·.2)) = some (ts.map (replaceAll ws us)) := by rw [hpf, mapOpt_comp]; exact hk4
    obtain ⟨st1, f1, f2, f3⟩ := VScope.addBinds (L := L) (vars := ws) (args := us) pvs (bs := binderSyms body ++ casesBinderSyms cs) hs ha
      (fun v h hx => hv v h (by simp only [List.mem_append]; exact .inl hx)) hpw hmo (hr.left (l1.trans l2))
    have hlen : (g.genNames (pvs.map (·.1))).2.length = ts.length := by
      have := mapOpt_tyVars_length hmo
      rw [genNames_length]
      simpa using this.symm
    have hE := enterBinds_spec (L := L) hlen f1 hs.pre
    have a1 := (hs.scope.addAll ha).2
    obtain ⟨T, st2, w1, t1, k1, u1⟩ := check_gen body f2 a1.left (fun v h hx => hv v h (by simp [hx])) hp.1 h1 e1 ((hr.right l0 f3).left l2)
    have C1 := (checkExpr_chk f2.pre k1).1
    obtain ⟨st3, k2, d1, d2⟩ := exits_some (ns := (g.genNames (pvs.map (·.1))).2) (st := st2) hE.dist fun n hn => by
      rw [C1.inScope, hE.inScope]; simp [hn]
    have C3 := hE.leave hs.pre C1 k2
    have u3 : Used g g1 st st3 := (f3.trans l0 l1 u1).exit d1 d2
    have hb0 : ∀ x ∈ pvs.map (·.1), Γ.find x = none ∧ declOf Δ x = none ∧ x ∉ vs := fun x hx =>
      ⟨(ha.left.2 x hx).1, (ha.left.2 x hx).2, fun h => hv x h (by simp only [List.mem_append]; exact .inl hx)⟩
    have s0 := hs.move (ext_genNames (pvs.map (·.1)) g) hb0 (.refl st) hs.pre
    have hb1 : ∀ x ∈ binderSyms body, Γ.find x = none ∧ declOf Δ x = none ∧ x ∉ vs := fun x hx =>
      ⟨(ha.right.left.2 x hx).1, (ha.right.left.2 x hx).2, fun h => hv x h (by simp [hx])⟩
    have s1 := s0.move (ext_genExpr body e1) hb1 C3.move (C3.pre hs.pre)
    have q : ∀ t, WfTy Δ vs t → genTy g t = genTy g1 t := fun t hw => by
      rw [genTy_of_move hs (ext_genNames (pvs.map (·.1)) g) (fun b hb => (hb0 b hb).2) hw, genTy_of_move s0 (ext_genExpr body e1) (fun b hb => (hb1 b hb).2) hw]
    rw [← genTy_of_move hs (ext_genNames (pvs.map (·.1)) g) (fun b hb => (hb0 b hb).2) w1] at t1
    obtain ⟨r, st4, k4, u4, hres⟩ := check_genCases cs (acc := some T) s1 ha.right.right (fun v h hx => hv v h (by simp [hx])) hp.2 hd hl hw hdty (by rw [← q _ hw]; exact hD) hb h2 e2
      (hr.right (l0.trans l1) u3) (.inr ⟨T, rfl, by rw [← q _ w1]; exact t1⟩)
    have hcn' : cn = if b then k.folded else k.regular := by
      simp only [Gen.caseName] at hcn
      rw [(ext_genExpr body e1).ctors, (ext_genNames _ g).ctors, hk1] at hcn
      exact (Option.some.inj hcn).symm
    have hj : joinTy acc T = some T := joinTy_same (hacc.imp_right fun ⟨T', h3, h4⟩ => by rw [t1] at h4; cases h4; exact h3)
    refine ⟨r, st4, ?_, u3.trans (l0.trans l1) l2 u4, .inr ?_⟩
    · have hcond : True ∧ ws.length = us.length ∧ ts.length = (g.genNames (pvs.map (·.1))).2.length := ⟨trivial, hk3, hlen.symm⟩
      subst hcn'
      simp only [checkBranches, hk2, Option.bind_some, if_pos hcond, f1, k1, hj, k2]
      exact k4
    · rcases hres with ⟨-, rfl⟩ | ⟨T', h3, h4, rfl⟩
      · exact ⟨T, w1, t1, rfl⟩
      · exact ⟨T', h3, by rw [q _ h3]; exact h4, rfl⟩
end

end Tic.Front
