import Verif.SatWalk
/-
Helper for saturation: what the two walks compute.
-/
namespace Tic.Core

/-- The group lengths of the recorded functions. -/
def lensOf (m : Rws) (x : Name) : Option (List Nat) := (getRw m x).map fun r => r.groups.map List.length

theorem getRw_cons (m : Rws) (x y : Name) (r : Rewrite) : getRw ((x, r) :: m) y = if x = y then some r else getRw m y := by
  unfold getRw
  by_cases h : x = y <;> simp [h]

/-! ### The use walk -/

theorem mapSt_le {f : Expr → Fresh → Option (Expr × Fresh)} (hf : ∀ e g r, f e g = some r → g.names ≤ r.2.names) :
    ∀ {es : List Expr} {g : Fresh} {r : List Expr × Fresh}, mapSt f es g = some r → g.names ≤ r.2.names
  | [], _, _, h => by cases h; exact Nat.le_refl _
  | e :: es, g, r, h => by
    simp only [mapSt] at h
    obtain ⟨r1, h1, h2⟩ := Option.bind_eq_some_iff.1 h
    obtain ⟨r2, h3, rfl⟩ := Option.map_eq_some_iff.1 h2
    have h4 := mapSt_le hf h3
    exact Nat.le_trans (hf _ _ _ h1) h4

theorem usesN_le (m : Rws) : ∀ (n : Nat) (e : Expr) (g : Fresh) (r : Expr × Fresh), usesN m n e g = some r → g.names ≤ r.2.names
  | 0, e, g, r, h => by cases h; exact Nat.le_refl _
  | n + 1, e, g, r, h => by
    rw [usesN] at h
    obtain ⟨r1, h1, h2⟩ := Option.bind_eq_some_iff.1 h
    refine Nat.le_trans (mapSt_le (usesN_le m n) h1) ?_
    unfold rewriteExpr at h2
    split at h2
    · split at h2
      · obtain ⟨is, is', us, g', h3, -, h4, -⟩ := rewriteUse_spec _ _ r1.2
        rw [h3] at h2; cases h2; exact h4
      · cases h2; exact Nat.le_refl _
    · cases h2; exact Nat.le_refl _

theorem usesN_pi {m : Rws} {n : Nat} {v : TyVar} {e : Expr} {g : Fresh} : usesN m (n + 1) (.pi v e) g = (usesN m n e g).map fun r => (.pi v r.1, r.2) := by
  rw [usesN]
  simp only [children, List.map_cons, List.map_nil, mapSt]
  cases usesN m n e g <;> rfl

theorem usesN_lam {m : Rws} {n : Nat} {ps : List (Name × Ty)} {e : Expr} {g : Fresh} :
    usesN m (n + 1) (.lam ps e) g = (usesN m n e g).map fun r => (.lam ps r.1, r.2) := by
  rw [usesN]
  simp only [children, List.map_cons, List.map_nil, mapSt]
  cases usesN m n e g <;> rfl

theorem usesN_letrec {m : Rws} {n : Nat} {x : Name} {t : Ty} {v e : Expr} {g : Fresh} :
    usesN m (n + 1) (.letrec x t v e) g = (usesN m n v g).bind fun r => (usesN m n e r.2).map fun r2 => (.letrec x t r.1 r2.1, r2.2) := by
  rw [usesN]
  simp only [children, List.map_cons, List.map_nil, mapSt]
  cases h : usesN m n v g with
  | none => rfl
  | some r => simp only [Option.bind_some]; cases usesN m n e r.2 <;> rfl

theorem usesN_pis {m : Rws} {n : Nat} {e : Expr} {g : Fresh} : ∀ {vs : List TyVar}, usesN m (n + vs.length) (pis vs e) g = (usesN m n e g).map fun r => (pis vs r.1, r.2)
  | [] => by simp [pis]
  | v :: vs => by
    rw [pis, List.length_cons, ← Nat.add_assoc, usesN_pi, usesN_pis (vs := vs)]
    cases usesN m n e g <;> rfl

theorem esize_pis (e : Expr) : ∀ (vs : List TyVar), esize (pis vs e) = esize e + vs.length
  | [] => rfl
  | v :: vs => by rw [pis, esize, esize_pis e vs, List.length_cons]; omega

theorem esize_lams (e : Expr) : ∀ (gs : List (List (Name × Ty))), esize (lams gs e) = esize e + gs.length
  | [] => rfl
  | v :: vs => by rw [lams, esize, esize_lams e vs, List.length_cons]; omega

/-- The walk through a collapsed function. -/
theorem usesN_fn {m : Rws} {n : Nat} {vs : List TyVar} {ps : List (Name × Ty)} {b e' : Expr} {g g' : Fresh} (hn : esize (pis vs (.lam ps b)) ≤ n)
    (h : usesN m n (pis vs (.lam ps b)) g = some (e', g')) : ∃ k b', esize b ≤ k ∧ usesN m k b g = some (b', g') ∧ e' = pis vs (.lam ps b') := by
  rw [esize_pis, esize] at hn
  obtain ⟨k, rfl⟩ : ∃ k, n = (k + 1) + vs.length := ⟨n - vs.length - 1, by omega⟩
  rw [usesN_pis, usesN_lam] at h
  obtain ⟨r, h1, h2⟩ := Option.map_eq_some_iff.1 h
  obtain ⟨r2, h3, rfl⟩ := Option.map_eq_some_iff.1 h1
  simp only [Prod.mk.injEq] at h2
  exact ⟨k, r2.1, by omega, by rw [h3, ← h2.2], h2.1.symm⟩

variable {R : Name → Option (List Nat)}

theorem occ_pis_lam {y : Name} {vs : List TyVar} {ps : List (Name × Ty)} {b : Expr} (h : Occ y b) : Occ y (pis vs (.lam ps b)) := by
  induction vs with
  | nil => exact occ_child (c := (ps.map (·.1), b)) (by simp [pis, children]) h
  | cons v vs ih => exact occ_child (c := ([], pis vs (.lam ps b))) (by simp [pis, children]) ih

mutual
theorem Col.uses : ∀ {e e1 : Expr}, Col R e e1 → ∀ {m : Rws} {n : Nat} {g g' : Fresh} {e2 : Expr}, esize e1 ≤ n → usesN m n e1 g = some (e2, g') →
    (∀ x, Occ x e1 → R x = lensOf m x) → (∀ x : Nat, Occ x e1 → x < g.names) → Sat R e e2
  | _, _, .node (e := e) (cs := cs) h1 h2, m, n, g, g', e2, hn, h, hR, hlt => by
    have hlen : cs.length = (children e).length := by rw [← h2.length, List.length_map]
    have hc : ∀ c ∈ cs, ∃ c', c' ∈ children (rebuild e cs) ∧ c'.2 = c := fun c hc => by
      rw [← children_rebuild_snd hlen] at hc
      obtain ⟨c', h1, h2⟩ := List.mem_map.1 hc
      exact ⟨c', h1, h2⟩
    obtain ⟨n, rfl⟩ : ∃ k, n = k + 1 := ⟨n - 1, by have := esize_pos (rebuild e cs); omega⟩
    rw [usesN, children_rebuild_snd hlen] at h
    obtain ⟨⟨es, g1⟩, h3, h4⟩ := Option.bind_eq_some_iff.1 h
    have hs := ColL.uses h2 (n := n) (m := m) (g := g) (g' := g1) (es2 := es) (fun c hc' => by
      obtain ⟨c', h5, rfl⟩ := hc c hc'
      have := mem_children_esize h5; omega) h3 (fun c hc' x hx => by
      obtain ⟨c', h5, rfl⟩ := hc c hc'
      exact hR x (occ_child h5 hx)) fun c hc' x hx => by
      obtain ⟨c', h5, rfl⟩ := hc c hc'
      exact hlt x (occ_child h5 hx)
    have hlen2 : es.length = (children e).length := by rw [← hs.length, List.length_map]
    dsimp only at h4
    rw [rebuild_rebuild hlen hlen2] at h4
    by_cases hx : ∃ x, e = .name x
    · obtain ⟨x, rfl⟩ := hx
      simp only [children, List.length_nil, List.length_eq_zero_iff] at hlen hlen2
      subst hlen; subst hlen2
      cases h3
      have hox : Occ x (rebuild (.name x) []) := .inl (by simp [rebuild, Free])
      simp only [rebuild, rewriteExpr] at h4
      split at h4
      · rename_i r hr
        obtain ⟨is, is', us, g2, h5, h6, h7, h8⟩ := rewriteUse_spec x r g
        rw [h5] at h4; cases h4
        refine .use (by rw [hR x hox, lensOf, hr]; rfl) h6 (fun hm => ?_) h8.nodup
        exact Nat.not_le.2 (hlt x hox) (h8.range x hm).1
      · rename_i hr
        cases h4
        exact .node (e := .name x) (cs := []) (fun y hy => by cases hy; rw [hR x hox, lensOf, hr]; rfl) h1 .nil
    · rw [rewriteExpr_other fun x he => hx ⟨x, rebuild_name hlen2 he⟩] at h4
      cases h4
      exact .node (fun x he => absurd ⟨x, he⟩ hx) h1 hs
  | _, _, .letrec (n := x) (vs := vs) (g := u) (gs := us) (b' := b') (e' := e') h1 h2 h3 h4, m, n, g, g', e2, hn, h, hR, hlt => by
    obtain ⟨n, rfl⟩ : ∃ k, n = k + 1 := ⟨n - 1, by rw [esize] at hn; omega⟩
    rw [usesN_letrec] at h
    obtain ⟨⟨e5, g5⟩, h5, h6⟩ := Option.bind_eq_some_iff.1 h
    obtain ⟨⟨e7, g7⟩, h7, h8⟩ := Option.map_eq_some_iff.1 h6
    simp only [Prod.mk.injEq] at h8
    obtain ⟨rfl, rfl⟩ := h8
    rw [esize] at hn
    obtain ⟨k, b2, h9, h10, rfl⟩ := usesN_fn (by omega) h5
    refine .letrec h1 h2 (Col.uses h3 h9 h10 (fun y hy => hR y ?_) fun y hy => hlt y ?_)
      (Col.uses h4 (by omega) h7 (fun y hy => hR y ?_) fun y hy => Nat.lt_of_lt_of_le (hlt y ?_) (usesN_le _ _ _ _ _ h5))
    · exact occ_child (c := ([x], pis vs (.lam (u :: us).flatten b'))) (by simp [children]) (occ_pis_lam hy)
    · exact occ_child (c := ([x], pis vs (.lam (u :: us).flatten b'))) (by simp [children]) (occ_pis_lam hy)
    · exact occ_child (c := ([x], e')) (by simp [children]) hy
    · exact occ_child (c := ([x], e')) (by simp [children]) hy
theorem ColL.uses : ∀ {es es1 : List Expr}, ColL R es es1 → ∀ {m : Rws} {n : Nat} {g g' : Fresh} {es2 : List Expr}, (∀ c ∈ es1, esize c ≤ n) →
    mapSt (usesN m n) es1 g = some (es2, g') →
    (∀ c ∈ es1, ∀ x, Occ x c → R x = lensOf m x) → (∀ c ∈ es1, ∀ x : Nat, Occ x c → x < g.names) → SatL R es es2
  | _, _, .nil, _, _, _, _, _, _, h, _, _ => by cases h; exact .nil
  | _, _, .cons h1 h2, m, n, g, g', es2, hn, h, hR, hlt => by
    simp only [mapSt] at h
    obtain ⟨⟨e3, g3⟩, h3, h4⟩ := Option.bind_eq_some_iff.1 h
    obtain ⟨⟨e5, g5⟩, h5, h6⟩ := Option.map_eq_some_iff.1 h4
    simp only [Prod.mk.injEq] at h6
    obtain ⟨rfl, rfl⟩ := h6
    exact .cons (Col.uses h1 (hn _ (by simp)) h3 (hR _ (by simp)) (hlt _ (by simp)))
      (ColL.uses h2 (fun c hc => hn c (by simp [hc])) h5 (fun c hc => hR c (by simp [hc]))
        fun c hc y hy => Nat.lt_of_lt_of_le (hlt c (by simp [hc]) y hy) (usesN_le _ _ _ _ _ h3))
end

/-! ### The collapsing walk -/

theorem collapseN_pi {n : Nat} {v : TyVar} {e : Expr} {m : Rws} : collapseN (n + 1) (.pi v e) m = (.pi v (collapseN n e m).1, (collapseN n e m).2) := rfl
theorem collapseN_lam {n : Nat} {ps : List (Name × Ty)} {e : Expr} {m : Rws} : collapseN (n + 1) (.lam ps e) m = (.lam ps (collapseN n e m).1, (collapseN n e m).2) := rfl

theorem collapseN_pis {n : Nat} {e : Expr} {m : Rws} : ∀ {vs : List TyVar}, collapseN (n + vs.length) (pis vs e) m = (pis vs (collapseN n e m).1, (collapseN n e m).2)
  | [] => rfl
  | v :: vs => by rw [pis, List.length_cons, ← Nat.add_assoc, collapseN_pi, collapseN_pis (vs := vs)]; rfl

theorem collapseN_fn {n : Nat} {vs : List TyVar} {ps : List (Name × Ty)} {b : Expr} {m : Rws} (hn : esize (pis vs (.lam ps b)) ≤ n) :
    ∃ k, k < n ∧ esize b ≤ k ∧ collapseN n (pis vs (.lam ps b)) m = (pis vs (.lam ps (collapseN k b m).1), (collapseN k b m).2) := by
  rw [esize_pis, esize] at hn
  obtain ⟨k, rfl⟩ : ∃ k, n = (k + 1) + vs.length := ⟨n - vs.length - 1, by omega⟩
  exact ⟨k, by omega, by omega, by rw [collapseN_pis, collapseN_lam]⟩

theorem cnt_fn (y : Name) {t t' : Ty} {e e' : Expr} {r : Rewrite} (h : checkForRewrite t e = some (r, t', e')) : cnt y e' = cnt y e := by
  obtain ⟨vs, g, gs, b, rfl, rfl, -⟩ := checkForRewrite_some h
  rw [cnt_pis, cnt_pis, cnt_lam, cnt_lams]

theorem cnt_children (y : Name) (e : Expr) : (((children e).map (·.2)).map (cnt y)).sum ≤ cnt y e := by
  rw [cnt_eq y e, List.map_map]; exact Nat.le_add_left _ _

theorem mapRw_other {f : Expr → Rws → Expr × Rws} {y : Name} (hf : ∀ e m, cnt y e = 0 → getRw (f e m).2 y = getRw m y) :
    ∀ (es : List Expr) (m : Rws), (es.map (cnt y)).sum = 0 → getRw (mapRw f es m).2 y = getRw m y
  | [], _, _ => rfl
  | e :: es, m, h => by
    simp only [List.map_cons, List.sum_cons] at h
    simp only [mapRw]
    rw [mapRw_other hf es _ (by omega), hf e m (by omega)]

/-- Only binders of the expression are recorded. -/
theorem collapseN_other {y : Name} : ∀ (n : Nat) (e : Expr) (m : Rws), cnt y e = 0 → getRw (collapseN n e m).2 y = getRw m y
  | 0, _, _, _ => rfl
  | n + 1, e, m, h => by
    simp only [collapseN]
    have h1 : cnt y (collapseNode e m).1 = 0 ∧ getRw (collapseNode e m).2 y = getRw m y := by
      unfold collapseNode
      split
      · split
        · rename_i x t v b r t' v' hc
          rw [cnt_letrec] at h
          rw [cnt_letrec, cnt_fn y hc]
          refine ⟨h, ?_⟩
          rw [getRw_cons, if_neg]
          intro hx; rw [if_pos hx] at h; omega
        · exact ⟨h, rfl⟩
      · exact ⟨h, rfl⟩
    rw [mapRw_other (collapseN_other n) _ _ (by have := cnt_children y (collapseNode e m).1; omega), h1.2]

theorem mapRw_length (f : Expr → Rws → Expr × Rws) : ∀ (es : List Expr) (m : Rws), (mapRw f es m).1.length = es.length
  | [], _ => rfl
  | e :: es, m => by simp [mapRw, mapRw_length f es]

/-- What the collapsing walk computes, with the enclosing binders not yet recorded. -/
def ColOK (f : Expr → Rws → Expr × Rws) (e : Expr) : Prop :=
  ∀ m, (∀ y, cnt y e ≤ 1) → (∀ y, 0 < cnt y e → getRw m y = none) →
    ∀ R, (∀ y, 0 < cnt y e → R y = lensOf (f e m).2 y) → Col R e (f e m).1

theorem mapRw_col {f : Expr → Rws → Expr × Rws} (hf : ∀ y e m, cnt y e = 0 → getRw (f e m).2 y = getRw m y) :
    ∀ (es : List Expr), (∀ e ∈ es, ColOK f e) → ∀ m, (∀ y, (es.map (cnt y)).sum ≤ 1) → (∀ y, 0 < (es.map (cnt y)).sum → getRw m y = none) →
      ∀ R, (∀ y, 0 < (es.map (cnt y)).sum → R y = lensOf (mapRw f es m).2 y) → ColL R es (mapRw f es m).1
  | [], _, _, _, _, _, _ => .nil
  | e :: es, h, m, hu, hm, R, hR => by
    simp only [List.map_cons, List.sum_cons] at hu hm hR
    simp only [mapRw] at hR ⊢
    refine .cons (h e (by simp) m (fun y => by have := hu y; omega) (fun y hy => hm y (by omega)) R fun y hy => ?_)
      (mapRw_col hf es (fun e he => h e (by simp [he])) _ (fun y => by have := hu y; omega) (fun y hy => ?_) R fun y hy => hR y (by omega))
    · rw [hR y (by omega), lensOf, lensOf, mapRw_other (hf y)]
      have := hu y; omega
    · rw [hf y]
      · exact hm y (by omega)
      · have := hu y; omega

theorem collapseNode_other {e : Expr} {m : Rws} (h : ∀ x t v b r, e = .letrec x t v b → checkForRewrite t v ≠ some r) : collapseNode e m = (e, m) := by
  unfold collapseNode
  split
  · split
    · rename_i hc
      exact absurd hc (h _ _ _ _ _ rfl)
    · rfl
  · rfl

theorem collapseN_col : ∀ (n : Nat) (e : Expr), esize e ≤ n → ColOK (collapseN n) e := by
  intro n
  induction n using Nat.strongRecOn with
  | ind n IH =>
  intro e hn m hu hm R hR
  obtain ⟨n, rfl⟩ : ∃ k, n = k + 1 := ⟨n - 1, by have := esize_pos e; omega⟩
  by_cases hc : ∃ x t v b r, e = .letrec x t v b ∧ checkForRewrite t v = some r
  · obtain ⟨x, t, v, body, ⟨r, t', v'⟩, rfl, hc⟩ := hc
    obtain ⟨vs, g, gs, b, rfl, rfl, hl⟩ := checkForRewrite_some hc
    have hsz : esize (pis vs (.lam (g :: gs).flatten b)) ≤ n := by
      rw [esize, esize_pis, esize_lams, List.length_cons] at hn
      rw [esize_pis, esize]; omega
    have hszb : esize body ≤ n := by rw [esize] at hn; omega
    obtain ⟨k, hk, hbk, hfn⟩ := collapseN_fn (m := (x, r) :: m) hsz
    have hcount : ∀ y, cnt y (.letrec x t (pis vs (lams (g :: gs) b)) body) = (if x = y then 1 else 0) + (((g :: gs).flatten.map (·.1)).count y + cnt y b + cnt y body) := by
      intro y; rw [cnt_letrec, cnt_pis, cnt_lams]
    simp only [hcount] at hu hm hR
    have hx : ∀ y, x = y → cnt y b = 0 ∧ cnt y body = 0 ∧ ((g :: gs).flatten.map (·.1)).count y = 0 := fun y hy => by
      have := hu y; rw [if_pos hy] at this; omega
    have hcol : collapseN (n + 1) (.letrec x t (pis vs (lams (g :: gs) b)) body) m =
        (.letrec x t' (pis vs (.lam (g :: gs).flatten (collapseN k b ((x, r) :: m)).1)) (collapseN n body (collapseN k b ((x, r) :: m)).2).1,
          (collapseN n body (collapseN k b ((x, r) :: m)).2).2) := by
      simp only [collapseN, collapseNode, hc, children, List.map_cons, List.map_nil, mapRw, hfn]
      rfl
    rw [hcol] at hR ⊢
    dsimp only at hR ⊢
    have h1 : ∀ y, cnt y body = 0 → lensOf (collapseN n body (collapseN k b ((x, r) :: m)).2).2 y = lensOf (collapseN k b ((x, r) :: m)).2 y := fun y hy => by
      rw [lensOf, lensOf, collapseN_other _ _ _ hy]
    have h2 : ∀ y, cnt y b = 0 → lensOf (collapseN k b ((x, r) :: m)).2 y = lensOf ((x, r) :: m) y := fun y hy => by
      rw [lensOf, lensOf, collapseN_other _ _ _ hy]
    refine .letrec ?_ (fun y hy => ?_) (IH k (by omega) b hbk _ (fun y => by have := hu y; omega) (fun y hy => ?_) R fun y hy => ?_)
      (IH n (by omega) body hszb _ (fun y => by have := hu y; omega) (fun y hy => ?_) R fun y hy => hR y (by omega))
    · rw [hR x (by rw [if_pos rfl]; omega), h1 x (hx x rfl).2.1, h2 x (hx x rfl).1, lensOf, getRw_cons, if_pos rfl, Option.map_some, hl]
    · have hp : 0 < ((g :: gs).flatten.map (·.1)).count y := List.count_pos_iff.2 hy
      have := hu y
      rw [hR y (by omega), h1 y (by omega), h2 y (by omega), lensOf, getRw_cons, if_neg (fun h => by have := hx y h; omega), hm y (by omega)]; rfl
    · rw [getRw_cons, if_neg (fun h => by have := hx y h; omega)]; exact hm y (by omega)
    · rw [hR y (by omega), h1 y (by have := hu y; omega)]
    · rw [collapseN_other _ _ _ (by have := hu y; omega), getRw_cons, if_neg (fun h => by have := hx y h; omega)]; exact hm y (by omega)
  · have hno := collapseNode_other (e := e) (m := m) (fun x t v b r h1 h2 => hc ⟨x, t, v, b, r, h1, h2⟩)
    simp only [collapseN, hno] at hR ⊢
    have hle := cnt_children (e := e)
    refine .node (fun y hy => ?_) (mapRw_col (fun y e m => collapseN_other n e m) _ (fun c hc' => ?_) m (fun y => Nat.le_trans (hle y) (hu y))
      (fun y hy => hm y (Nat.lt_of_lt_of_le hy (hle y))) R fun y hy => hR y (Nat.lt_of_lt_of_le hy (hle y)))
    · have hp : 0 < (own e).count y := List.count_pos_iff.2 hy
      have he := cnt_eq y e
      have := hu y
      rw [hR y (by omega), lensOf, mapRw_other (collapseN_other n), hm y (by omega)]
      · rfl
      · rw [List.map_map]
        show ((children e).map fun c => cnt y c.2).sum = 0
        omega
    · obtain ⟨c, hc1, rfl⟩ := List.mem_map.1 hc'
      exact IH n (by omega) c.2 (by have := mem_children_esize hc1; omega)

end Tic.Core
