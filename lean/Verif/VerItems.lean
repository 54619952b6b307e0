import Verif.VerCtors
/-
Verifying generated programs: built-in functions, and whole programs.
-/
namespace Tic.Front
open Tic.Unify (Symbol IrTy)
open Tic.Core

theorem checkArgs_names {L : Nat} {st : VSt} : ∀ {ts : List Ty} {ps : List Name}, ps.length = ts.length → (∀ p ∈ ps.zip ts, p.1 ∈ st.inScope ∧ vget p.1 st.types = some p.2) →
    checkArgs L st ts (ps.map .name) = some st
  | [], ps, _, _ => by cases ps <;> simp [checkArgs]
  | t :: ts, [], h, _ => by simp at h
  | t :: ts, p :: ps, h1, h3 => by
    obtain ⟨q1, q2⟩ := h3 (p, t) (by simp)
    simp only [List.map_cons, checkArgs, checkExpr]
    rw [if_pos q1]
    simp only [q2, Option.bind_some, fits_refl, if_true]
    exact checkArgs_names (by simpa using h1) fun q hq => h3 q (by simp [hq])

theorem check_intrFn {L : Nat} {g : Gen} {st : VSt} {i : Core.Intrinsic} (hp : Pre st) (rm : Room L g (intrFn g i (intrParams i)).1 st) :
    ∃ st3, checkExpr L st (intrFn g i (intrParams i)).2 = some ((intrParams i).foldr (fun t u => .fn [t] u) (intrResult i), st3) ∧ Used g (intrFn g i (intrParams i)).1 st st3 := by
  have hl : (g.freshes (intrParams i).length).2.length = (intrParams i).length := by rw [freshes_range]; simp
  have hb : ∀ t ∈ intrParams i, ∀ st1, checkTy st1 t = some st1 := by
    intro t ht st1
    cases i <;> simp [intrParams] at ht <;> (try rcases ht with rfl | rfl) <;> (try subst ht) <;> rfl
  have hr : ∀ p ∈ (g.freshes (intrParams i).length).2, g.names ≤ p ∧ p < (intrFn g i (intrParams i)).1.names := by
    intro p h
    rw [freshes_range, List.mem_range'_1] at h
    refine ⟨h.1, ?_⟩
    show p < (g.freshes (intrParams i).length).1.names
    rw [freshes_names]
    exact h.2
  obtain ⟨st2, c1, c2, c3⟩ := check_lams (L := L) (body := .intr i ((g.freshes (intrParams i).length).2.map .name)) (R := intrResult i) (ps := (g.freshes (intrParams i).length).2.zip (intrParams i)) hp
    (by rw [zip_map_fst hl, freshes_range]; exact List.nodup_range')
    (fun p h => by
      have h1 := hr _ (List.of_mem_zip h).1
      exact ⟨Nat.lt_of_lt_of_le h1.2 rm.limit, rm.names _ h1.1 h1.2⟩)
    (fun p h st1 _ _ => hb _ (List.of_mem_zip h).2 st1)
    (fun st1 _ _ hall => by
      simp only [checkExpr, List.length_map, hl, if_true, checkArgs_names hl hall, Option.bind_some])
  rw [zip_map_snd hl] at c1
  refine ⟨st2, c1, fun n hn => ?_, fun a ha => .inl (c3 ▸ ha)⟩
  rcases c2 n hn with hn | hn
  · exact .inl hn
  · rw [zip_map_fst hl] at hn; exact .inr (hr n hn)

theorem check_iterate {L : Nat} {st : VSt} {a : TyVar} {n f x go n2 x2 : Name} (ha : a ∉ st.definedTy) (hn : [n, f, x, go, n2, x2].Nodup) (hL : ∀ m ∈ [n, f, x, go, n2, x2], m < L ∧ m ∉ st.defined) :
    ∃ st3, checkExpr L st (.pi a (.lam [(n, .int)] (.lam [(f, .fn [.var a] (.var a))] (.lam [(x, .var a)]
      (.letrec go (.fn [.int, .var a] (.var a))
        (.lam [(n2, .int), (x2, .var a)]
          (.ite (.op (.name n2) .lessEq (.int 0)) (.name x2)
            (.call (.name go) [.op (.name n2) .subtract (.int 1), .call (.name f) [.name x2]])))
        (.call (.name go) [.name n, .name x])))))) = some (.abs a (.fn [.int] (.fn [.fn [.var a] (.var a)] (.fn [.var a] (.var a)))), st3) ∧
      (∀ m ∈ st3.defined, m ∈ st.defined ∨ m ∈ [n, f, x, go, n2, x2]) ∧ ∀ b, b ∈ st3.definedTy ↔ b = a ∨ b ∈ st.definedTy := by
  simp only [List.nodup_cons, List.mem_cons, List.not_mem_nil, or_false, not_or, List.nodup_nil, and_true, not_false_eq_true] at hn
  obtain ⟨⟨a1, a2, a3, a4, a5⟩, ⟨b1, b2, b3, b4⟩, ⟨c1, c2, c3⟩, ⟨d1, d2⟩, e1⟩ := hn
  simp only [List.mem_cons, List.not_mem_nil, or_false, forall_eq_or_imp, forall_eq] at hL
  obtain ⟨⟨l1, m1⟩, ⟨l2, m2⟩, ⟨l3, m3⟩, ⟨l4, m4⟩, ⟨l5, m5⟩, l6, m6⟩ := hL
  have h : (checkExpr L st (.pi a (.lam [(n, .int)] (.lam [(f, .fn [.var a] (.var a))] (.lam [(x, .var a)]
      (.letrec go (.fn [.int, .var a] (.var a))
        (.lam [(n2, .int), (x2, .var a)]
          (.ite (.op (.name n2) .lessEq (.int 0)) (.name x2)
            (.call (.name go) [.op (.name n2) .subtract (.int 1), .call (.name f) [.name x2]])))
        (.call (.name go) [.name n, .name x]))))))).map (fun r => (r.1, r.2.defined, r.2.definedTy)) =
      some (.abs a (.fn [.int] (.fn [.fn [.var a] (.var a)] (.fn [.var a] (.var a)))), x2 :: n2 :: go :: x :: f :: n :: st.defined, a :: st.definedTy) := by
    simp [checkExpr, VSt.enterTy, enterPs, VSt.enter, VSt.setTy, VSt.exits, VSt.exit, VSt.exitTy, checkTy, checkTys, vget_cons, *, Ne.symm, Nat.not_le.mpr, checkArgs, fits, fitsP, fitsL, opResult, tyEq_refl]
  obtain ⟨⟨T, st3⟩, h1, h2⟩ := Option.map_eq_some_iff.mp h
  simp only [Prod.mk.injEq] at h2
  obtain ⟨rfl, h2, h3⟩ := h2
  refine ⟨st3, h1, fun m hm => ?_, fun b => by rw [h3]; simp⟩
  rw [h2] at hm
  simp only [List.mem_cons] at hm ⊢
  grind

/-- A value the verifier accepts, with a type for the scheme `sch`. -/
def ValueV (Δ : List TypeDecl) (L : Nat) (g g' : Gen) (st : VSt) (sch : Scheme) (c : Expr) : Prop :=
  ∃ T vs h st', checkExpr L st c = some (absTys vs T, st') ∧ mapOpt h.tyVars sch.vars = some vs ∧ genTy h sch.ty = some T ∧ vs.Nodup ∧ Older Δ [] g h ∧
    (∀ w ∈ vs, w ∈ st'.definedTy) ∧ Used g g' st st'

theorem Older.refl0 {Δ : List TypeDecl} {g : Gen} (h : GenOK Δ g) : Older Δ [] g g := .refl h (by simp)

/-- The built-in functions. -/
theorem check_builtin {Δ : List TypeDecl} {L : Nat} {g : Gen} {st : VSt} {b : Builtin} {sch : Scheme} (hg : GenOK Δ g) (ht : builtinTy sch.vars b = some sch.ty) (hf : b ≠ .iterate → sch.vars = [])
    (hv : ∀ v ∈ sch.vars, declOf Δ v = none) (hp : Pre st) (rm : Room L g (genBuiltin g b).1 st) : ValueV Δ L g (genBuiltin g b).1 st sch (genBuiltin g b).2 := by
  have intr : ∀ (i : Core.Intrinsic) (t : IrTy), Room L g (intrFn g i (intrParams i)).1 st → sch.vars = [] → sch.ty = t → genTy g t = some ((intrParams i).foldr (fun t u => .fn [t] u) (intrResult i)) →
      ValueV Δ L g (intrFn g i (intrParams i)).1 st sch (intrFn g i (intrParams i)).2 := by
    intro i t rm hv0 hty hgt
    obtain ⟨st3, h1, h2⟩ := check_intrFn hp rm
    exact ⟨_, [], g, st3, h1, by rw [hv0]; rfl, by rw [hty]; exact hgt, by simp, .refl0 hg, by simp, h2⟩
  cases b with
  | iterate =>
    obtain ⟨vars, ty⟩ := sch
    have hvars : ∃ a, vars = [a] ∧ ty = .fn .int (.fn (.fn (.named a []) (.named a [])) (.fn (.named a []) (.named a []))) := by
      cases vars with
      | nil => cases ht
      | cons a r =>
        cases r with
        | nil => cases ht; exact ⟨a, rfl, rfl⟩
        | cons _ _ => cases ht
    obtain ⟨a, rfl, rfl⟩ := hvars
    have hna : ∀ m ∈ [g.names, g.names + 1, g.names + 2, g.names + 3, g.names + 4, g.names + 5], (g.names : Nat) ≤ m ∧ m < (iterateFn g).1.names := by
      intro m hm
      show (g.names : Nat) ≤ m ∧ m < g.names + 6
      simp only [List.mem_cons, List.not_mem_nil, or_false] at hm
      rcases hm with rfl | rfl | rfl | rfl | rfl | rfl <;> exact ⟨by simp, by simp⟩
    obtain ⟨st3, h1, h2, h3⟩ := check_iterate (L := L) (st := st) (a := g.tys) (n := g.names) (f := g.names + 1) (x := g.names + 2) (go := g.names + 3) (n2 := g.names + 4) (x2 := g.names + 5)
      (rm.tys _ (Nat.le_refl _) (Nat.lt_succ_self _)) (by simp) (fun m hm => ⟨Nat.lt_of_lt_of_le (hna m hm).2 rm.limit, rm.names m (hna m hm).1 (hna m hm).2⟩)
    refine ⟨_, [g.tys], { g with tyVars := setAt g.tyVars a g.tys }, st3, h1, ?_, ?_, by simp, ⟨by simp, fun s d hd => ?_⟩, by simp [h3], ⟨fun m hm => (h2 m hm).imp_right (hna m), fun b hb => ?_⟩⟩
    · simp [mapOpt, setAt_eq]
    · simp [genTy, setAt_eq]
    · have hne : s ≠ a := fun e => by rw [e, hv a (by simp)] at hd; cases hd
      exact ⟨hg.notVar s d hd, (setAt_ne hne).trans (hg.notVar s d hd), rfl, rfl⟩
    · rcases (h3 b).mp hb with rfl | hb
      · exact .inr ⟨Nat.le_refl _, Nat.lt_succ_self _⟩
      · exact .inl hb
  | stringLength => exact intr .stringLen _ rm (hf (by simp)) (Option.some.inj ht).symm (by simp [genTy, intrParams, intrResult])
  | stringConcat => exact intr .stringConcat _ rm (hf (by simp)) (Option.some.inj ht).symm (by simp [genTy, intrParams, intrResult])
  | stringCharAt => exact intr .stringCharAt _ rm (hf (by simp)) (Option.some.inj ht).symm (by simp [genTy, intrParams, intrResult])
  | stringSubstring => exact intr .stringSubstring _ rm (hf (by simp)) (Option.some.inj ht).symm (by simp [genTy, intrParams, intrResult])
  | stringFromChar => exact intr .stringFromChar _ rm (hf (by simp)) (Option.some.inj ht).symm (by simp [genTy, intrParams, intrResult])
  | intToString => exact intr .intToString _ rm (hf (by simp)) (Option.some.inj ht).symm (by simp [genTy, intrParams, intrResult])

theorem le_genBuiltin (g : Gen) (b : Builtin) : Le g (genBuiltin g b).1 := by
  cases b
  case iterate => exact ⟨Nat.le_add_right _ _, Nat.le_add_right _ _⟩
  all_goals exact le_freshes _ _

theorem genValueItem_inv {I : Symbol → Option Builtin} {ee : Bool} {g g' : Gen} {s : Symbol} {ex : Option String} {sch : Scheme} {body : Ex IrTy} (h : genValueItem I ee g s ex sch body = some g') :
    ∃ ty tvs g4 c, genTy ((g.genName s).1.freshInst sch.vars) sch.ty = some ty ∧ mapOpt ((g.genName s).1.freshInst sch.vars).tyVars sch.vars = some tvs ∧
      genItemValue I (((g.genName s).1.freshInst sch.vars).freshInst sch.vars) s sch.vars body = some (g4, c) ∧
      g' = { g4 with defs := g4.defs ++ [⟨g.names, if ee then ex else none, absTys tvs ty, c⟩] } := by
  simp only [genValueItem, Gen.instTy, Option.bind_eq_some_iff, Option.map_eq_some_iff] at h
  obtain ⟨⟨g2, t⟩, ⟨ty, h1, tvs, h2, h3⟩, ⟨g4, c⟩, h4, h5⟩ := h
  cases h3
  exact ⟨ty, tvs, g4, c, h1, h2, h4, h5.symm⟩

theorem genItemValue_ext {I : Symbol → Option Builtin} {g g' : Gen} {s : Symbol} {vars : List Symbol} {body : Ex IrTy} {c : Expr} (h : genItemValue I g s vars body = some (g', c)) :
    Ext (binderSyms body) g g' ∧ Le g g' := by
  unfold genItemValue at h
  split at h
  · rename_i b _
    have h' : genBuiltin g b = (g', c) := Option.some.inj h
    have e1 : (genBuiltin g b).1 = g' := by rw [h']
    rw [← e1]
    exact ⟨(ext_genBuiltin g b).weaken (by simp), le_genBuiltin g b⟩
  · simp only [Option.bind_eq_some_iff, Option.map_eq_some_iff] at h
    obtain ⟨⟨g1, c1⟩, h1, vs, -, h2⟩ := h
    cases h2
    exact ⟨ext_genExpr body h1, le_genExpr body h1⟩

/-- The value of a value item; `g3` is the generator with type variables for `sch`, made from `g2`. -/
theorem check_itemValue {I : Symbol → Option Builtin} {w : World} {L : Nat} {g2 g4 : Gen} {st : VSt} {s : Symbol} {sch : Scheme} {body : Ex IrTy} {c : Expr} (hv : ValueOK I w s sch body)
    (hI : ∀ b, I s = some b → b ≠ .iterate → sch.vars = []) (hs : VScope w.decls [] w.ctx g2 st) (hnew : ∀ x ∈ sch.vars ++ binderSyms body, w.ctx.find x = none ∧ declOf w.decls x = none)
    (h : genItemValue I (g2.freshInst sch.vars) s sch.vars body = some (g4, c)) (rm : Room L g2 g4 st) : ValueV w.decls L g2 g4 st sch c := by
  obtain ⟨hnd, -⟩ := hv.new
  obtain ⟨nd1, nd2, nd3⟩ := List.nodup_append.mp (List.nodup_cons.mp hnd).2
  have l23 := le_freshInst sch.vars g2
  have hv0 : ∀ v ∈ sch.vars, declOf w.decls v = none := fun v hm => (hnew v (by simp [hm])).2
  have o23 : Older w.decls [] g2 (g2.freshInst sch.vars) := .ext hs.gen (by simp) (ext_freshInst _ _) fun b hb => ⟨hv0 b hb, by simp⟩
  cases hI' : I s with
  | some b =>
    simp only [genItemValue, hI', Option.some.injEq] at h
    have e1 : (genBuiltin (g2.freshInst sch.vars) b).1 = g4 := by rw [h]
    have e2 : (genBuiltin (g2.freshInst sch.vars) b).2 = c := by rw [h]
    rw [← e1] at rm ⊢
    rw [← e2]
    clear h e1 e2
    obtain ⟨T, vs, h, st', h1, h2, h3, h4, h5, h6, h7⟩ := check_builtin (L := L) (g := g2.freshInst sch.vars) (hs.gen.ext (ext_freshInst _ _) hv0) (hv.builtin b hI') (hI b hI') hv0 hs.pre (rm.mid l23 (.refl _))
    exact ⟨T, vs, h, st', h1, h2, h3, h4, o23.trans h5, h6, h7.wide l23 (.refl _)⟩
  | none =>
    simp only [genItemValue, hI', Option.bind_eq_some_iff, Option.map_eq_some_iff] at h
    obtain ⟨⟨g4', c'⟩, hgen, tvs', htv, h⟩ := h
    cases h
    obtain ⟨Γ, hΓ, hT⟩ := hv.typed hI'
    have hfind : ∀ b, w.ctx.find b = none → Γ.find b = none := by
      intro b hb
      cases hf : Γ.find b with
      | none => rfl
      | some sc => rw [hΓ b sc hf] at hb; cases hb
    have ht3 := freshInst_vars (g := g2) nd1
    have fr : ∀ w' ∈ List.range' g2.tys sch.vars.length, w' ∉ st.definedTy := by
      intro w' hw
      rw [List.mem_range'_1] at hw
      have l34 := le_genExpr body hgen
      refine rm.tys w' hw.1 (Nat.lt_of_lt_of_le hw.2 ?_)
      rw [← ht3.2]
      exact l34.tys
    have s3 := (hs.sub hΓ).types nd1 (fun x hx => ⟨hfind x (hnew x (by simp [hx])).1, hv0 x hx, by simp⟩) fr
    rw [List.append_nil] at s3
    have l34 := le_genExpr body hgen
    have ap : Apart w.decls Γ (binderSyms (body.map fill)) := by
      rw [binderSyms_map]
      exact ⟨nd2, fun b hb => ⟨hfind b (hnew b (by simp [hb])).1, (hnew b (by simp [hb])).2⟩⟩
    have u1 : Used g2 (g2.freshInst sch.vars) st (st.withTys (List.range' g2.tys sch.vars.length)) := by
      obtain ⟨x1, -, -, -, -, x6, -⟩ := withTys_spec (List.range' g2.tys sch.vars.length) st
      refine ⟨fun n hn => .inl (x1 ▸ hn), fun a ha => ?_⟩
      rcases (x6 a).mp ha with ha | ha
      · rw [List.mem_range'_1] at ha
        exact .inr ⟨ha.1, by rw [ht3.2]; exact ha.2⟩
      · exact .inl ha
    obtain ⟨T, st', -, c2, c3, c4⟩ := check_gen (L := L) (body.map fill) s3 ap (by
        intro v hm hb
        rw [binderSyms_map] at hb
        exact nd3 v hm v hb rfl) ((plainLets_map fill body).mpr hv.lets) hT (by rw [genExpr_fill]; exact hgen) (rm.right l23 u1)
    obtain ⟨st2, d1, d2, d3⟩ := check_pis List.nodup_range' fr hs.pre c3
    have e4 := ext_genExpr body hgen
    have : tvs' = List.range' g2.tys sch.vars.length := by
      rw [mapOpt_congr (fun x hx => e4.ty x fun hb => nd3 x hx x hb rfl), ht3.1] at htv
      cases htv; rfl
    subst this
    refine ⟨T, _, g2.freshInst sch.vars, st2, d1, ht3.1, c2, List.nodup_range', o23, fun w' hw => ?_, (u1.trans l23 l34 c4).exit d2 d3⟩
    rw [d3]
    have ch := (checkExpr_chk s3.pre c3).1
    exact ch.tys w' (((withTys_spec _ st).2.2.2.2.2.1 w').mpr (.inl hw))

/-! ### Invariants -/

/-- What the verifier knows while it checks types: `w` has been generated. -/
structure TInv (w : World) (g : Gen) (st : VSt) : Prop where
  scope : VScope w.decls [] [] g st
  below : Below g st

/-- Nothing the generator makes until `g` has been defined after `st`. -/
structure Beyond (g : Gen) (st stT : VSt) : Prop where
  move : SMove st stT
  sub : ∀ x ∈ st.defined, x ∈ stT.defined
  names : ∀ n ∈ stT.defined, n ∈ st.defined ∨ g.names ≤ n
  tys : ∀ a ∈ stT.definedTy, a ∈ st.definedTy ∨ g.tys ≤ a

/-- What the verifier knows while it checks definitions; it has checked all types before, in `stT`. -/
structure DInv (w : World) (g : Gen) (stT st : VSt) : Prop where
  scope : VScope w.decls [] w.ctx g st
  move : SMove stT st
  sub : ∀ x ∈ stT.defined, x ∈ st.defined
  names : ∀ n ∈ st.defined, n ∈ stT.defined ∨ n < g.names
  tys : ∀ a ∈ st.definedTy, a ∈ stT.definedTy ∨ a < g.tys
  top : st.inScopeTy = []

/-- The verifier accepts what is generated from `g` to `g'`. -/
def VStep (L : Nat) (w w' : World) (g g' : Gen) : Prop :=
  Le g g' ∧ (g'.names ≤ L → ∃ ts ds, g'.types = g.types ++ ts ∧ g'.defs = g.defs ++ ds ∧ ∀ st, TInv w g st →
    ∃ st', checkTyDefs L st ts = some st' ∧ TInv w' g' st' ∧ SMove st st' ∧ (∀ x ∈ st.defined, x ∈ st'.defined) ∧ Used g g' st st' ∧
      ∀ stT, Beyond g' st' stT → ∀ std, DInv w g stT std → ∃ std', checkDefs L std ds = some std' ∧ DInv w' g' stT std')

theorem VStep.refl {L w w' g} (hd : w'.decls = w.decls) (hc : w'.ctx = w.ctx) : VStep L w w' g g :=
  ⟨.refl g, fun _ => ⟨[], [], by simp, by simp, fun st hst => ⟨st, rfl, ⟨by rw [hd]; exact hst.scope, hst.below⟩, .refl st, fun _ h => h, .same, fun _ _ std hstd =>
    ⟨std, rfl, by rw [hd, hc]; exact hstd.scope, hstd.move, hstd.sub, hstd.names, hstd.tys, hstd.top⟩⟩⟩⟩

theorem VStep.trans {L w w' w'' g g' g''} (h : VStep L w w' g g') (h' : VStep L w' w'' g' g'') : VStep L w w'' g g'' := by
  refine ⟨h.1.trans h'.1, fun hL => ?_⟩
  obtain ⟨ts, ds, e1, e2, e3⟩ := h.2 (Nat.le_trans h'.1.names hL)
  obtain ⟨ts', ds', e1', e2', e3'⟩ := h'.2 hL
  refine ⟨ts ++ ts', ds ++ ds', by rw [e1', e1, List.append_assoc], by rw [e2', e2, List.append_assoc], fun st hst => ?_⟩
  obtain ⟨st1, a1, a2, a3, a4, a5, a6⟩ := e3 st hst
  obtain ⟨st2, b1, b2, b3, b4, b5, b6⟩ := e3' st1 a2
  refine ⟨st2, by rw [checkTyDefs_append, a1]; exact b1, b2, a3.trans a4 b3, fun x hx => b4 x (a4 x hx), a5.trans h.1 h'.1 b5, fun stT hB std hD => ?_⟩
  have hB1 : Beyond g' st1 stT := by
    refine ⟨b3.trans b4 hB.move, fun x hx => hB.sub x (b4 x hx), fun n hn => ?_, fun a ha => ?_⟩
    · rcases hB.names n hn with hn | hn
      · exact (b5.names n hn).imp_right (·.1)
      · exact .inr (Nat.le_trans h'.1.names hn)
    · rcases hB.tys a ha with ha | ha
      · exact (b5.tys a ha).imp_right (·.1)
      · exact .inr (Nat.le_trans h'.1.tys ha)
  obtain ⟨std1, c1, c2⟩ := a6 stT hB1 std hD
  obtain ⟨std2, d1, d2⟩ := b6 stT hB std1 c2
  exact ⟨std2, by rw [checkDefs_append, c1]; exact d1, d2⟩

end Tic.Front
