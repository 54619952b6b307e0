import Verif.SatColl
/-
Helper for saturation: the loop over the definitions.
-/
namespace Tic.Core

theorem good_flat {X : List Name} {vs : List TyVar} {gs : List (List (Name × Ty))} {b : Expr} (h : Good X (pis vs (lams gs b))) :
    Good X (pis vs (.lam gs.flatten b)) := by
  have hb := good_lams (good_pis h)
  refine ⟨fun y => ?_, fun y hy => ?_, fun x hx => ?_, shaped_pis ?_ vs⟩
  · have := h.uniq y; rw [cnt_pis, cnt_lams] at this; rw [cnt_pis, cnt_lam]; exact this
  · have := h.disj y hy; rw [cnt_pis, cnt_lams] at this; rw [cnt_pis, cnt_lam]; exact this
  · rw [free_pis, Free] at hx
    exact (List.mem_append.1 (hb.scope x hx.2)).resolve_left hx.1
  · rw [wellShaped_iff]
    exact ⟨trivial, fun c hc => by simp only [children, List.mem_cons, List.not_mem_nil, or_false] at hc; subst hc; exact hb.recs⟩

/-- What the loop does with the definitions. -/
structure SDefs (X : List Name) (ds : List ValueDef) (m : Rws) (g : Fresh) (ds' : List ValueDef) (m' : Rws) (g' : Fresh) : Prop where
  good : Good X (lets (defPairs ds') unit)
  le : g.names ≤ g'.names
  cold : ∀ y : Nat, y < g.names → cnt y (lets (defPairs ds') unit) = cnt y (lets (defPairs ds) unit)
  cnew : ∀ y : Nat, g'.names ≤ y → cnt y (lets (defPairs ds') unit) = 0
  kept : All2 (fun d d' : ValueDef => (d'.name = d.name ∧ d'.exportName = d.exportName) ∧
    (lensOf m' d.name ≠ none → (recLam d.value).isSome = true ∧ (recLam d'.value).isSome = true)) ds ds'
  other : ∀ y, cnt y (lets (defPairs ds) unit) = 0 → getRw m' y = getRw m y
  sat : ∀ R, (∀ y, y ∈ X ∨ 0 < cnt y (lets (defPairs ds) unit) → R y = lensOf m' y) → ∀ q q', Sat R q q' →
    Sat R (lets (defPairs ds) q) (lets (defPairs ds') q')

theorem satDefs_ok : ∀ (ds : List ValueDef) (X : List Name) (m : Rws) (g : Fresh), Good X (lets (defPairs ds) unit) →
    (∀ y, 0 < cnt y (lets (defPairs ds) unit) → getRw m y = none) → (∀ x : Nat, x ∈ X → x < g.names) →
    (∀ y : Nat, 0 < cnt y (lets (defPairs ds) unit) → y < g.names) →
    ∃ ds' m' g', satDefs ds m g = some (ds', m', g') ∧ SDefs X ds m g ds' m' g'
  | [], X, m, g, hg, hm, hX, hb => ⟨[], m, g, rfl, hg, Nat.le_refl _, fun _ _ => rfl, fun y _ => by simp [defPairs, lets, cnt, unit, binders],
      trivial, fun _ _ => rfl, fun _ _ _ _ h => h⟩
  | d :: ds, X, m, g, hg, hm, hX, hb => by
    have hlets : lets (defPairs (d :: ds)) unit = .let_ d.name d.value (lets (defPairs ds) unit) := rfl
    rw [hlets] at hg hm hb
    have hcl : ∀ y, cnt y (.let_ d.name d.value (lets (defPairs ds) unit)) = (if d.name = y then 1 else 0) + (cnt y d.value + cnt y (lets (defPairs ds) unit)) :=
      fun y => cnt_let y _ _ _
    simp only [hcl] at hm hb
    have hu := hg.uniq
    simp only [hcl] at hu
    have hdj := hg.disj
    simp only [hcl] at hdj
    obtain ⟨hv, hrest, hnX, hnv, -⟩ := good_let.1 hg
    -- the definition's own rewrite
    obtain ⟨t1, v1, m1, hc, hgv, hcv, hm1, hcase⟩ : ∃ t1 v1 m1, rewriteDef d m = (t1, v1, m1) ∧ Good X v1 ∧ (∀ y, cnt y v1 = cnt y d.value) ∧
        (∀ y, d.name ≠ y → getRw m1 y = getRw m y) ∧
        ((v1 = d.value ∧ m1 = m) ∨ ∃ vs u us b, d.value = pis vs (lams (u :: us) b) ∧ v1 = pis vs (.lam (u :: us).flatten b) ∧
          lensOf m1 d.name = some ((u :: us).map List.length)) := by
      unfold rewriteDef
      cases hck : checkForRewrite d.ty d.value with
      | none => exact ⟨_, _, _, rfl, hv, fun _ => rfl, fun _ _ => rfl, .inl ⟨rfl, rfl⟩⟩
      | some q =>
        obtain ⟨r, t', v'⟩ := q
        obtain ⟨vs, u, us, b, h1, h2, h3⟩ := checkForRewrite_some hck
        refine ⟨_, _, _, rfl, ?_, fun y => cnt_fn y hck, fun y hy => by rw [getRw_cons, if_neg hy], .inr ⟨vs, u, us, b, h1, h2, ?_⟩⟩
        · rw [h2]; rw [h1] at hv; exact good_flat hv
        · rw [lensOf, getRw_cons, if_pos rfl, Option.map_some, h3]
    have hbm1 : ∀ y, 0 < cnt y v1 → getRw m1 y = none := fun y hy => by
      rw [hcv] at hy
      have := hu y
      rw [hm1 y (fun h => by rw [if_pos h] at this; omega), hm y (by omega)]
    have huv1 : ∀ y, cnt y v1 ≤ 1 := fun y => by rw [hcv]; have := hu y; omega
    have hcol := collapseN_col (esize v1) v1 (Nat.le_refl _) m1 huv1 hbm1
    have hcol0 := hcol (lensOf (collapseN (esize v1) v1 m1).2) (fun _ _ => rfl)
    have hoth : ∀ y, cnt y v1 = 0 → getRw (collapseN (esize v1) v1 m1).2 y = getRw m1 y := fun y hy => collapseN_other _ _ _ hy
    have hsat : satDefs (d :: ds) m g = (usesN (collapseN (esize v1) v1 m1).2 (esize (collapseN (esize v1) v1 m1).1) (collapseN (esize v1) v1 m1).1 g).bind fun u =>
        (satDefs ds (collapseN (esize v1) v1 m1).2 u.2).map fun r => ({ d with ty := t1, value := u.1 } :: r.1, r.2) := by
      rw [satDefs]; simp only [hc]
    have hfn : ∀ vs ps b, v1 = pis vs (.lam ps b) → ∃ k, esize b ≤ k ∧ collapseN (esize v1) v1 m1 = (pis vs (.lam ps (collapseN k b m1).1), (collapseN k b m1).2) := by
      intro vs ps b h
      obtain ⟨k, -, h1, h2⟩ := collapseN_fn (m := m1) (n := esize v1) (by rw [h]; exact Nat.le_refl _)
      exact ⟨k, h1, by rw [← h2, ← h]⟩
    generalize collapseN (esize v1) v1 m1 = w at hcol hcol0 hoth hsat hfn
    have hgw := hcol0.good hgv
    have hcw : ∀ y, cnt y w.1 = cnt y d.value := fun y => by rw [hcol0.cnt, hcv]
    obtain ⟨⟨e2, g1⟩, hue⟩ := usesN_some w.2 (esize w.1) w.1 g
    rw [hue, Option.bind_some] at hsat
    have hpost := usesN_post w.2 _ X _ _ _ _ ⟨hgw, hX, fun y hy => hb y (by rw [hcw] at hy; omega)⟩ hue
    obtain ⟨ds', m', g', hr, ih⟩ := satDefs_ok ds (d.name :: X) w.2 g1 hrest (fun y hy => by
        have := hu y
        have hne : d.name ≠ y := fun h => by rw [if_pos h] at this; omega
        rw [hoth y (by rw [hcv]; omega), hm1 y hne, hm y (by omega)])
      (fun x hx => by
        refine Nat.lt_of_lt_of_le ?_ hpost.le
        rcases List.mem_cons.1 hx with rfl | hx
        · exact hb _ (by rw [if_pos rfl]; omega)
        · exact hX x hx)
      (fun y hy => Nat.lt_of_lt_of_le (hb y (by omega)) hpost.le)
    rw [hr] at hsat
    refine ⟨_, m', g', hsat, ?_⟩
    have hlets' : ∀ q', lets (defPairs ({ d with ty := t1, value := e2 } :: ds')) q' = .let_ d.name e2 (lets (defPairs ds') q') := fun _ => rfl
    have hcl' : ∀ y, cnt y (.let_ d.name e2 (lets (defPairs ds') unit)) = (if d.name = y then 1 else 0) + (cnt y e2 + cnt y (lets (defPairs ds') unit)) :=
      fun y => cnt_let y _ _ _
    have hdn : (d.name : Nat) < g.names := hb _ (by rw [if_pos rfl]; omega)
    -- the names not bound by the rest are recorded now or never
    have hm'w : ∀ y, cnt y (lets (defPairs ds) unit) = 0 → lensOf m' y = lensOf w.2 y := fun y hy => by rw [lensOf, lensOf, ih.other y hy]
    have hdone : cnt d.name (lets (defPairs ds) unit) = 0 := by have := hu d.name; rw [if_pos rfl] at this; omega
    have hoccs : ∀ y, Occ y w.1 → y ∈ X ∨ 0 < cnt y d.value := fun y hy => by
      rcases hy with hy | hy
      · exact .inl (hgw.scope y hy)
      · rw [← hcw]; exact .inr (List.count_pos_iff.2 hy)
    have hXr : ∀ y ∈ X, cnt y (lets (defPairs ds) unit) = 0 := fun y hy => by have := hdj y hy; omega
    have hvr : ∀ y, 0 < cnt y d.value → cnt y (lets (defPairs ds) unit) = 0 := fun y hy => by have := hu y; omega
    have hlt : ∀ x : Nat, Occ x w.1 → x < g.names := fun x hx => by
      rcases hoccs x hx with h | h
      · exact hX x h
      · exact hb x (by omega)
    refine ⟨?_, Nat.le_trans hpost.le ih.le, fun y hy => ?_, fun y hy => ?_, ⟨⟨⟨rfl, rfl⟩, fun hne => ?_⟩, ih.kept⟩, fun y hy => ?_, fun R hR q q' hq => ?_⟩
    · rw [hlets', good_let]
      refine ⟨hpost.good, ih.good, hnX, ?_, fun y => ?_⟩
      · rw [hpost.cold _ hdn, hcw]; exact hnv
      · by_cases hlt : (y : Nat) < g.names
        · rw [hpost.cold y hlt, ih.cold y (Nat.lt_of_lt_of_le hlt hpost.le), hcw]
          have := hu y; omega
        · by_cases hlt1 : (y : Nat) < g1.names
          · rw [ih.cold y hlt1]
            have h1 := hpost.good.uniq y
            have h2 : cnt y (lets (defPairs ds) unit) = 0 := by
              by_cases hz : cnt y (lets (defPairs ds) unit) = 0
              · exact hz
              · exact absurd (hb y (by omega)) hlt
            omega
          · rw [hpost.cnew y (Nat.not_lt.1 hlt1)]
            have := ih.good.uniq y; omega
    · rw [hlets', hlets, hcl', hcl, hpost.cold y hy, ih.cold y (Nat.lt_of_lt_of_le hy hpost.le), hcw]
    · rw [hlets', hcl', hpost.cnew y (Nat.le_trans ih.le hy), ih.cnew y hy, if_neg]
      intro h; rw [← h] at hy
      exact absurd (Nat.lt_of_lt_of_le hdn (Nat.le_trans hpost.le ih.le)) (Nat.not_lt.2 hy)
    · rcases hcase with ⟨h1, h2⟩ | ⟨vs, u, us, b, h1, h2, h3⟩
      · refine absurd ?_ hne
        rw [hm'w _ hdone, lensOf, hoth _ (by rw [hcv]; exact hnv), h2, hm _ (by rw [if_pos rfl]; omega)]; rfl
      · refine ⟨by rw [h1, recLam_pis, lams, recLam_lam]; rfl, hpost.recs ?_⟩
        obtain ⟨k, -, hw⟩ := hfn _ _ _ h2
        rw [hw, recLam_pis, recLam_lam]; rfl
    · rw [hlets, hcl] at hy
      have hne : d.name ≠ y := fun h => by rw [if_pos h] at hy; omega
      rw [ih.other y (by omega), hoth y (by rw [hcv]; omega), hm1 y hne]
    · have hRw : ∀ y, Occ y w.1 → R y = lensOf w.2 y := fun y hy => by
        rcases hoccs y hy with h | h
        · rw [hR y (.inl h), hm'w y (hXr y h)]
        · rw [hR y (.inr (by rw [hlets, hcl]; omega)), hm'w y (hvr y h)]
      have hrest' := ih.sat R (fun y hy => hR y (by
        rw [hlets, hcl]
        rcases hy with hy | hy
        · rcases List.mem_cons.1 hy with rfl | hy
          · right; rw [if_pos rfl]; omega
          · exact .inl hy
        · right; omega)) q q' hq
      have hRd : R d.name = lensOf m1 d.name := by
        rw [hR _ (.inr (by rw [hlets, hcl, if_pos rfl]; omega)), hm'w _ hdone, lensOf, hoth _ (by rw [hcv]; exact hnv)]; rfl
      rw [show lets (defPairs (d :: ds)) q = .let_ d.name d.value (lets (defPairs ds) q) from rfl, hlets']
      rcases hcase with ⟨h1, h2⟩ | ⟨vs, u, us, b, h1, h2, h3⟩
      · subst h1; subst h2
        have hc2 : Col R d.value w.1 := hcol R fun y hy => by rw [hR y (.inr (by rw [hlets, hcl]; omega)), hm'w y (hvr y hy)]
        have hs : Sat R d.value e2 := hc2.uses (Nat.le_refl _) hue hRw hlt
        refine Sat.node (e := .let_ d.name d.value (lets (defPairs ds) q)) (cs := [e2, lets (defPairs ds') q']) (fun x h => by cases h) (fun y hy => ?_) (.cons hs (.cons hrest' .nil))
        simp only [own, List.mem_cons, List.not_mem_nil, or_false] at hy
        rw [hy, hRd, lensOf, hm _ (by rw [if_pos rfl]; omega)]; rfl
      · obtain ⟨k, hk, hw⟩ := hfn _ _ _ h2
        have hcb : ∀ y, cnt y d.value = ((u :: us).flatten.map (·.1)).count y + cnt y b := fun y => by rw [h1, cnt_pis, cnt_lams]
        have hue' := hue
        rw [hw] at hue'
        obtain ⟨k2, b2, hk2, hub, he2⟩ := usesN_fn (Nat.le_refl _) hue'
        have hRv : ∀ y, 0 < cnt y d.value → R y = lensOf w.2 y := fun y hy => by rw [hR y (.inr (by rw [hlets, hcl]; omega)), hm'w y (hvr y hy)]
        have hcb' : Col R b (collapseN k b m1).1 := by
          refine collapseN_col k b hk m1 (fun y => by have h4 := huv1 y; rw [hcv, hcb] at h4; omega) (fun y hy => hbm1 y (by rw [hcv, hcb]; omega)) R fun y hy => ?_
          rw [hRv y (by rw [hcb]; omega), hw]
        have hocb : ∀ y, Occ y (collapseN k b m1).1 → Occ y w.1 := fun y hy => by rw [hw]; exact occ_pis_lam hy
        have hsb : Sat R b b2 := hcb'.uses hk2 hub (fun y hy => by rw [hRw y (hocb y hy), hw]) fun y hy => hlt y (hocb y hy)
        rw [h1, he2]
        refine .let_ (by rw [hRd, h3]) (fun y hy => ?_) hsb hrest'
        have hp : 0 < ((u :: us).flatten.map (·.1)).count y := List.count_pos_iff.2 hy
        have h5 := hbm1 y (by rw [hcv, hcb]; omega)
        have h6 := huv1 y
        rw [hcv, hcb] at h6
        rw [hRv y (by rw [hcb]; omega), hw, lensOf]
        dsimp only
        rw [collapseN_other _ _ _ (by omega), h5]; rfl

end Tic.Core
