import Verif.VerValue
/-
Verifying generated programs: type items.
-/
namespace Tic.Front
open Tic.Unify (Symbol IrTy)
open Tic.Core

theorem Entry.lift {Δ Δ' vs g st vars ws h Δ₀ vs₀} (he : Entry Δ vs g st vars ws h Δ₀ vs₀) (hs : ∀ s d, declOf Δ s = some d → declOf Δ' s = some d)
    (hv : ∀ x ∈ vars, declOf Δ x = none → declOf Δ' x = none) : Entry Δ' vs g st vars ws h Δ₀ vs₀ :=
  ⟨fun s d hd => hs s d (he.sub s d hd), he.subv, he.older, fun x hx => ⟨(he.off x hx).1, hv x hx (he.off x hx).2⟩, he.vars, he.nodup, he.gone⟩

theorem SchV.lift {Δ Δ' vs g st sch T} (h : SchV Δ vs g st sch T) (hs : ∀ s d, declOf Δ s = some d → declOf Δ' s = some d)
    (hv : ∀ x ∈ sch.vars, declOf Δ x = none → declOf Δ' x = none) : SchV Δ' vs g st sch T := by
  obtain ⟨Δ₀, vs₀, h, ws, T₀, h1, h2⟩ := h
  exact ⟨Δ₀, vs₀, h, ws, T₀, h1.lift hs hv, h2⟩

theorem DeclV.lift {Δ Δ' g st d n m} (h : DeclV Δ g st d n m) (hs : ∀ s d, declOf Δ s = some d → declOf Δ' s = some d)
    (hv : ∀ x ∈ d.vars, declOf Δ x = none → declOf Δ' x = none) : DeclV Δ' g st d n m := by
  refine ⟨h.name, h.folded, h.scope, h.kind, h.kindF, h.ne, fun c hc => ?_⟩
  obtain ⟨k, hk, ⟨Δ₀, h', ws, ts, h1, h2, h3, h4⟩, ⟨Δ₁, h'', ws', r, ts', e1, e2, e3, e4, e5, e6⟩⟩ := h.ctors c hc
  exact ⟨k, hk, ⟨Δ₀, h', ws, ts, h1.lift hs hv, h2, h3, h4⟩, ⟨Δ₁, h'', ws', r, ts', e1.lift hs hv, e2, e3, e4, e5, e6⟩⟩

theorem le_genCtorFns {functor : Bool} {tyName : Name} {vars : List Symbol} (hn : vars.Nodup) : ∀ {ps : List (Symbol × Name)} {g g' : Gen}, genCtorFns functor tyName vars g ps = some g' → Le g g'
  | [], g, g', h => by simp only [genCtorFns, Option.some.injEq] at h; subst h; exact .refl _
  | (c, cn) :: ps, g, g', h => by
    simp only [genCtorFns, Option.bind_eq_some_iff] at h
    obtain ⟨g1, h1, h2⟩ := h
    exact (genCtorFn_inv hn h1).1.le.trans (le_genCtorFns hn h2)

theorem le_genTypeItem {functor : Bool} {g g' : Gen} {d : TypeDecl} (hn : d.vars.Nodup) (h : genTypeItem functor g d = some g') : Le g g' := by
  obtain ⟨vs, gm, tcs, g4, tc, h1, h2, h3, rfl⟩ := genTypeItem_inv h
  have l0 : Le g (g.tyName functor d.sym) := by
    cases functor
    · exact le_genName g d.sym
    · exact ⟨Nat.le_succ _, Nat.le_refl _⟩
  have l4 := (((l0.trans (le_freshInst d.vars _)).trans (le_foldedInst _ functor)).trans (le_genTyCases h2)).trans (le_genCtorFns hn h3)
  exact ⟨l4.names, l4.tys⟩

theorem type_vstep {I : Symbol → Option Builtin} {ee : Bool} {L : Nat} {w : World} {g g' : Gen} {d : TypeDecl} (h : Inv w g) (hd : DeclOK w d) (hne : d.ctors ≠ [])
    (hgen : emitItem I ee (w.done, g) (.type d) = some (w.done, g')) (h' : Inv (w.item I (.type d)) g') : VStep L w (w.item I (.type d)) g g' := by
  obtain ⟨hnd, hnu⟩ := hd.new
  have ha : Away w.decls (d.sym :: (d.vars ++ d.ctors.map (·.1))) := h.away hnu
  have hdv : d.sym ∉ d.vars := fun hm => (List.nodup_cons.mp hnd).1 (by simp [hm])
  have hdc : d.sym ∉ d.ctors.map (·.1) := fun hm => (List.nodup_cons.mp hnd).1 (List.mem_append.mpr (.inr hm))
  obtain ⟨hvn, hcn, hvc⟩ := List.nodup_append.mp (List.nodup_cons.mp hnd).2
  have hcv : ∀ c ∈ d.ctors.map (·.1), c ∉ d.vars := fun c hc hm => hvc _ hm _ hc rfl
  have hcu : ∀ c ∈ d.ctors.map (·.1), c ∉ w.used := fun c hc => hnu c (List.mem_cons_of_mem _ (List.mem_append.mpr (.inr hc)))
  have hvu : ∀ c ∈ d.vars, c ∉ w.used := fun c hc => hnu c (by simp [hc])
  have hsu : d.sym ∉ w.used := hnu _ (by simp)
  have hoff : ∀ s ∈ d.sym :: (d.vars ++ d.ctors.map (·.1)), declOf w.decls s = none := fun s hs => ha.none s hs
  -- fields
  have e0 : ExtT g.names [] [] (d.ctors.map (·.1)) g (g.addFields d) :=
    ⟨Nat.le_refl _, fun _ _ => rfl, fun _ _ => rfl, fun _ _ => rfl, fun s hs => foldl_setAt hs, fun _ _ => rfl, fun _ _ => rfl⟩
  have b0 : GenB w.decls g.names (g.addFields d) := h.gen.extT e0 away_nil away_nil (away_sub ha (fun s hs => List.mem_cons_of_mem _ (List.mem_append.mpr (.inr hs))))
  have hf0 : ∀ c ∈ d.ctors, (g.addFields d).ctorFields c.1 = some c.2 ∧ FieldsOK w.decls d.vars c.2 := fun c hc =>
    ⟨foldl_setAt_mem hcn hc, fun t ht => ((hd.fields c hc).2 t ht).2⟩
  -- the type
  obtain ⟨g1, ns1, cs1, r1, l1, n1, bd1, e1, f1, c1, ⟨td, htd, htdn⟩, k1, -, hF⟩ := genTypeItem_ok (functor := false) (g := g.addFields d) (k := g.names) (Nat.le_refl _) b0 ha hnd hf0
    (by simp) (fun _ => by
      cases hc : (g.addFields d).foldedNames d.sym with
      | none => rfl
      | some x => exact absurd (h.folded d.sym (by rw [show g.foldedNames d.sym = some x from hc]; rfl)) hsu)
  obtain ⟨hfold1, hsym1, hlt1, hsn1, ds, hds, hex, hcd, hcnm, hok⟩ := hF rfl
  simp only [Bool.false_eq_true, if_false] at e1
  have hsub1 : ∀ s ∈ d.sym :: (d.ctors.map (·.1) ++ d.vars), s ∈ d.sym :: (d.vars ++ d.ctors.map (·.1)) := by
    intro s hs
    simp only [List.mem_cons, List.mem_append] at hs ⊢
    grind
  have hsub2 : ∀ s ∈ d.sym :: d.ctors.map (·.1), s ∈ d.sym :: (d.vars ++ d.ctors.map (·.1)) := by
    intro s hs
    simp only [List.mem_cons, List.mem_append] at hs ⊢
    grind
  have b1 : GenB w.decls g.names g1 := b0.extT e1 (away_sub ha hsub1) (away_sub ha (by simp +contextual)) (away_sub ha hsub2)
  have hf1 : ∀ c ∈ d.ctors, g1.ctorFields c.1 = some c.2 ∧ FieldsOK w.decls d.vars c.2 := fun c hc => ⟨by rw [f1]; exact (hf0 c hc).1, (hf0 c hc).2⟩
  -- the functor
  obtain ⟨g2, ns2, cs2, r2, l2, n2, bd2, e2, f2, c2, ⟨td2, htd2, htdn2⟩, k2, hT, -⟩ := genTypeItem_ok (functor := true) (g := g1) (k := g.names) e1.names b1 ha hnd
    hf1 (fun _ => ⟨g.names, hsym1, Nat.le_refl _, hlt1⟩) (by simp)
  obtain ⟨hds2, hfold2, -⟩ := hT rfl
  simp only [if_true] at e2
  have : g2 = g' := by
    simp only [emitItem, r1, Option.bind_some, r2, Option.map_some] at hgen
    exact congrArg Prod.snd (Option.some.inj hgen)
  subst this
  have hsym2 : g2.symNames d.sym = some g.names := (e2.sym d.sym hdv).trans hsym1
  have hnone : ∀ c ∈ d.ctors.map (·.1), g.ctors c = none := by
    intro c hc
    cases hk : g.ctors c with
    | none => rfl
    | some k => exact absurd (h.ctors c k hk).1 (hcu c hc)
  have hct : ∀ (i : Nat) c, (d.ctors.map (·.1))[i]? = some c → ∃ x y m m', ns1[i]? = some x ∧ ns2[i]? = some y ∧ g2.ctors c = some ⟨c, x, y, m, m'⟩ := by
    intro i c hi
    have hil : i < d.ctors.length := by simpa using (List.getElem?_eq_some_iff.mp hi).1
    have hx := List.getElem?_eq_getElem (l := ns1) (i := i) (by rw [l1]; exact hil)
    have hy := List.getElem?_eq_getElem (l := ns2) (i := i) (by rw [l2]; exact hil)
    obtain ⟨m, hm⟩ := k1 _ (mem_zip_get hi hx)
    obtain ⟨m', hm'⟩ := k2 _ (mem_zip_get hi hy)
    simp only at hm hm'
    rw [show (g.addFields d).ctors c = none from hnone c (List.mem_of_getElem? hi)] at hm
    rw [hm] at hm'
    exact ⟨_, _, m, m', hx, hy, hm'⟩
  have hdn : declOf w.decls d.sym = none := ha.none _ (by simp)
  have hdecl : ∀ x, x ∈ w.used → declOf (d :: w.decls) x = declOf w.decls x := by
    intro x hx
    rw [declOf_cons, if_neg (fun (e : d.sym = x) => hsu (e ▸ hx))]
  have hsubΔ : ∀ s d', declOf w.decls s = some d' → declOf (d :: w.decls) s = some d' := by
    intro s d' hs
    rw [declOf_cons, if_neg]
    · exact hs
    · rintro rfl
      rw [hdn] at hs; cases hs
  have hdself : declOf (d :: w.decls) d.sym = some d := by rw [declOf_cons, if_pos rfl]
  have e02 : ExtT g.names (d.sym :: (d.ctors.map (·.1) ++ d.vars)) d.vars (d.sym :: d.ctors.map (·.1)) g g2 :=
    ((e0.weaken (by simp) (by simp) (fun _ h => List.mem_cons_of_mem _ h)).trans e1).trans
      (e2.weaken (fun s hs => by simp [hs]) (fun _ h => h) (fun _ h => h))
  have hvoff : ∀ x ∈ d.vars, declOf (d :: w.decls) x = none := by
    intro x hx
    rw [declOf_cons, if_neg (fun (e : d.sym = x) => hdv (e ▸ hx))]
    exact hoff x (by simp [hx])
  have ctorsOld : ∀ s d', declOf w.decls s = some d' → ∀ c ∈ d'.ctors, g1.ctors c.1 = g.ctors c.1 ∧ g2.ctors c.1 = g.ctors c.1 := by
    intro s d' hs c hc
    have hm := (away_sub ha hsub2 s d' hs).2 c hc
    exact ⟨(e1.ctors c.1 hm).trans rfl, e02.ctors c.1 hm⟩
  have hgen2 : GenOK (d :: w.decls) g2 := h'.gen.ok
  have o00 : Older w.decls [] g (g.addFields d) := ⟨by simp, fun s d' hs => ⟨h.gen.ok.notVar s d' hs, h.gen.ok.notVar s d' hs, rfl, rfl⟩⟩
  have le1 : Le g g1 := by
    obtain ⟨x1, x2⟩ := le_genTypeItem hvn r1
    exact ⟨x1, x2⟩
  have le2 : Le g1 g2 := le_genTypeItem hvn r2
  refine ⟨le1.trans le2, fun hL => ⟨[td, td2], ds, by rw [htd2, htd]; simp [Gen.addFields], by rw [hds2, hds]; rfl, fun st hI => ?_⟩⟩
  -- checking the type
  have sc0 : VScope w.decls [] [] (g.addFields d) st := hI.scope.shift o00 b0.ok (fun _ _ _ _ _ => rfl) (.refl _) hI.scope.pre
  obtain ⟨gm, hg, vs, fi, tcs, st1, V1⟩ := check_typeItem (L := L) sc0 (hI.below.le ⟨Nat.le_refl _, Nat.le_refl _⟩) hnd hoff hf0 r1 (Nat.le_trans le2.names hL)
  have o01 : Older w.decls [] g g1 := o00.trans V1.older.1
  have sc1 : VScope w.decls [] [] g1 st1 := hI.scope.shift o01 b1.ok (fun s d' hs c hc => (ctorsOld s d' hs c hc).1) V1.move V1.pre
  obtain ⟨gm2, hg2, vs2, fi2, tcs2, st2, V2⟩ := check_typeItem (L := L) sc1 (V1.below.le V1.le') hnd hoff hf1 r2 hL
  have efi : fi = [] := V1.folded
  subst efi
  have efi2 : fi2 = [hg2.tys - 1] := V2.folded
  generalize hr : hg2.tys - 1 = r at *
  subst efi2
  have htd' : td = ⟨g.names, vs ++ [], tcs⟩ := by
    have := V1.types
    rw [htd] at this
    have := List.append_cancel_left this
    simp only [List.cons.injEq, and_true] at this
    exact this
  have htd2' : td2 = ⟨g1.names, vs2 ++ [r], tcs2⟩ := by
    have := V2.types
    rw [htd2] at this
    simpa using List.append_cancel_left this
  have mv := V1.move.trans V1.sub V2.move
  have sub : ∀ x ∈ st.defined, x ∈ st2.defined := fun x hx => V2.sub x (V1.sub x hx)
  have o02 : Older w.decls [] g g2 := o01.trans V2.older.1
  have hns1 : ns1 = tcs.map (·.name) := by rw [← htdn, htd']
  have hns2 : ns2 = tcs2.map (·.name) := by rw [← htdn2, htd2']
  have sc2 : VScope (d :: w.decls) [] [] g2 st2 := by
    refine ⟨V2.pre, hgen2, by simp, fun s d' hs => ?_, fun s sch hs => by cases hs⟩
    rw [declOf_cons] at hs
    by_cases e : d.sym = s
    · rw [if_pos e] at hs
      cases hs
      refine ⟨g.names, g1.names, hsym2, V2.foldedName rfl, ⟨V2.move.scope _ V1.scope, V2.scope⟩, ?_, ?_, hne, fun c hc => ?_⟩
      · have := V2.move.kinds _ _ V1.kind
        rw [List.append_nil, mapOpt_tyVars_length V1.vars] at this
        exact this
      · have := V2.kind
        rw [List.length_append, mapOpt_tyVars_length V2.vars] at this
        exact this
      · obtain ⟨i, hi⟩ := List.getElem?_of_mem hc
        obtain ⟨x, y, m, m', hx, hy, hk⟩ := hct i c.1 (by rw [List.getElem?_map, hi]; rfl)
        obtain ⟨ts, tc, q1, q2, q3⟩ := V1.ctors i c hi
        obtain ⟨ts2, tc2, p1, p2, p3⟩ := V2.ctors i c hi
        have ex : x = tc.name := by
          rw [hns1, List.getElem?_map, q1] at hx
          exact (Option.some.inj hx).symm
        have ey : y = tc2.name := by
          rw [hns2, List.getElem?_map, p1] at hy
          exact (Option.some.inj hy).symm
        subst ex ey
        have fv : FieldsV w.decls d.vars c.2 := (hd.fields c hc).2
        refine ⟨_, hk, ⟨w.decls, hg, vs, ts, ⟨hsubΔ, by simp, V1.older.2.trans V2.older.1, fun x hx => ⟨by simp, hvoff x hx⟩, V1.vars, by simpa using V1.nodup, fun a ha => ?_⟩, fv, ?_, q2⟩,
          ⟨w.decls, hg2, vs2, r, ts2, ⟨hsubΔ, by simp, V2.older.2, fun x hx => ⟨by simp, hvoff x hx⟩, V2.vars, (List.nodup_append.mp V2.nodup).1, fun a ha => V2.gone a (by simp [ha])⟩, fv, ?_, V2.gone r (by simp), p3, p2⟩⟩
        · obtain ⟨y1, y2⟩ := V1.gone a (by simpa using ha)
          exact ⟨V2.move.tys a y1, fun hx => y2 (V2.move.back a y1 hx)⟩
        · have := V2.move.ctors _ _ q3
          rw [List.append_nil] at this
          exact this
        · intro hr
          exact (List.nodup_append.mp V2.nodup).2.2 r hr r (by simp) rfl
    · rw [if_neg e] at hs
      obtain ⟨n, m, D⟩ := hI.scope.decl s d' hs
      refine ⟨n, m, (D.move (by rw [declOf_sym hs]; exact hs) o02 (fun c hc => (ctorsOld s d' hs c hc).2) mv).lift hsubΔ fun x hx hn => ?_⟩
      rw [hdecl x ((h.used d' (declOf_mem hs)).2.1 x hx)]
      exact hn
  have us : Used g g2 st st2 := by
    have u1 : Used g g1 st st1 := by
      obtain ⟨x1, x2⟩ := V1.used.wide (.refl _) V1.le'
      exact ⟨x1, x2⟩
    exact u1.trans le1 le2 (V2.used.wide (.refl _) V2.le')
  refine ⟨st2, ?_, ⟨sc2, V2.below.le V2.le'⟩, mv, sub, us, fun stT hB std hD => ?_⟩
  · subst htd' htd2'
    simp only [checkTyDefs]
    rw [show (⟨g.names, vs ++ [], tcs⟩ : TyDef) = ⟨(g.addFields d).names, vs ++ [], tcs⟩ from rfl, V1.check, Option.bind_some, V2.check, Option.bind_some]
  -- the constructors
  obtain ⟨g4, ds', w1, w2, w3, w4, w5, w6⟩ := V1.fns rfl
  have eds : ds' = ds := by
    rw [hds] at w3
    exact (List.append_cancel_left w3).symm
  subst eds
  have rm : Room L gm g4 std := by
    refine ⟨by rw [w1]; exact Nat.le_trans le2.names hL, fun n h1 h2 hn => ?_, fun a h1 h2 ha => ?_⟩
    · rw [w1] at h2
      have hlt : ¬ (n : Nat) < g.names := Nat.not_lt_of_le (Nat.le_trans V1.le.names h1)
      rcases hD.names n hn with hn | hn
      · rcases hB.names n hn with hn | hn
        · rcases V2.used.names n hn with hn | hn
          · exact Nat.not_le_of_lt (V1.below.names n hn) h1
          · exact Nat.not_le_of_lt h2 hn.1
        · exact Nat.not_le_of_lt h2 (Nat.le_trans le2.names hn)
      · exact hlt hn
    · rw [w2] at h2
      have hlt : ¬ (a : Nat) < g.tys := Nat.not_lt_of_le (Nat.le_trans V1.le.tys h1)
      rcases hD.tys a ha with hn | hn
      · rcases hB.tys a hn with hn | hn
        · rcases V2.used.tys a hn with hn | hn
          · exact Nat.not_le_of_lt (V1.below.tys a hn) h1
          · exact Nat.not_le_of_lt h2 hn.1
        · exact Nat.not_le_of_lt h2 (Nat.le_trans le2.tys hn)
      · exact hlt hn
  have mvD : SMove st2 std := hB.move.trans hB.sub hD.move
  have scD : VScope (d :: w.decls) [] w.ctx g2 std := by
    refine ⟨hD.scope.pre, hgen2, by simp, fun s d' hs => ?_, fun s sch hs => ?_⟩
    · obtain ⟨n, m, D⟩ := sc2.decl s d' hs
      exact ⟨n, m, D.move (by rw [declOf_sym hs]; exact hs) (.refl0 hgen2) (fun _ _ => rfl) mvD⟩
    · obtain ⟨n, T, x1, x2, x3, x4⟩ := hD.scope.ctx s sch hs
      obtain ⟨y1, y2, -⟩ := h.ctx s sch hs
      refine ⟨n, T, ?_, x2, x3, (x4.move o02 (by simp) (.refl _)).lift hsubΔ fun x hx hn => ?_⟩
      · rw [e02.sym s fun hm => hnu s (hsub1 s hm) y1]; exact x1
      · rw [hdecl x (y2 x hx)]; exact hn
  have hfix : Fix (⟨fun _ => True, fun _ => none, fun _ => none⟩ : Sem) (d :: w.decls) := h'.fix ⟨by simp, by simp⟩
  have hwf : ∀ c ∈ d.ctors, FieldsOK (d :: w.decls) d.vars c.2 := fun c hc t ht => h'.wf d.sym d hdself c hc t ht
  obtain ⟨std', z1, z2, z3, z4, z5, z6⟩ := check_ctorFns (L := L) (Δ₀ := w.decls) hdself hsym2 (fun x hx => ⟨hvoff x hx, hoff x (by simp [hx])⟩)
    (fun s hs => hoff s (hsub1 s (List.mem_cons_of_mem _ hs))) hdv (fun c hc => hcv _ (List.mem_map_of_mem hc)) (fun c hc => ⟨(hf0 c hc).2, hwf c hc⟩)
    (fun c hc => wf_ctorTy hfix hdself hc) w6 scD (fun _ h => h) (fun x hx => by
      cases hf : w.ctx.find x with
      | none => rfl
      | some sc => exact absurd (h.ctx x sc hf).1 (hvu x hx))
    (fun i c nm hi hnm => by
      obtain ⟨x, y, m, m', hx, hy, hk⟩ := hct i c.1 (by rw [List.getElem?_map, hi]; rfl)
      rw [hns1, hnm] at hx
      cases hx
      exact ⟨_, hk, rfl⟩)
    (fun i c e hi he => by
      rw [e2.sym c.1 (hcv _ (List.mem_map_of_mem (List.mem_of_getElem? hi)))]
      exact (hcnm i c e hi he).1) (w4.trans V2.older.1) rm hD.top
  refine ⟨std', z1, z2, hD.move.trans hD.sub z4, fun x hx => z5 x (hD.sub x hx), fun n hn => ?_, fun a ha => ?_, z6⟩
  · rcases z3.names n hn with hn | hn
    · exact (hD.names n hn).imp_right fun h => Nat.lt_of_lt_of_le h (le1.trans le2).names
    · exact .inr (Nat.lt_of_lt_of_le (w1 ▸ hn.2) le2.names)
  · rcases z3.tys a ha with hn | hn
    · exact (hD.tys a hn).imp_right fun h => Nat.lt_of_lt_of_le h (le1.trans le2).tys
    · exact .inr (Nat.lt_of_lt_of_le (w2 ▸ hn.2) le2.tys)

end Tic.Front
