import Verif.SatPass
/-
Helper for saturation: the two walks over an expression.
-/
namespace Tic.Core

theorem zipWith_zipWith (bs : List Branch) : ∀ (xs ys : List Expr), xs.length = bs.length →
    List.zipWith (fun (b : Branch) x => Branch.mk b.ctor b.binds x) (List.zipWith (fun (b : Branch) x => Branch.mk b.ctor b.binds x) bs xs) ys =
    List.zipWith (fun (b : Branch) x => Branch.mk b.ctor b.binds x) bs ys := by
  induction bs with
  | nil => intro xs ys h; simp
  | cons b bs ih =>
    intro xs ys h
    cases xs with
    | nil => simp at h
    | cons x xs => cases ys with
      | nil => simp
      | cons y ys =>
        rw [List.zipWith_cons_cons, List.zipWith_cons_cons, List.zipWith_cons_cons, ih xs ys (by simpa using h)]
        rfl

theorem rebuild_rebuild {e : Expr} {cs ds : List Expr} (h : cs.length = (children e).length) (h2 : ds.length = (children e).length) :
    rebuild (rebuild e cs) ds = rebuild e ds := by
  cases e <;> simp only [children, List.length_cons, List.length_nil, List.length_map] at h h2
  case call f xs => cases cs with
    | nil => simp at h
    | cons c cs => cases ds with
      | nil => simp at h2
      | cons d ds => rfl
  case intr i xs => rfl
  case con c ts xs => rfl
  case mtch e bs => cases cs with
    | nil => simp at h
    | cons c cs => cases ds with
      | nil => simp at h2
      | cons d ds =>
        simp only [rebuild]
        rw [zipWith_zipWith bs cs ds (by simpa using h)]
  all_goals
    rcases cs with _ | ⟨c1, _ | ⟨c2, _ | ⟨c3, _ | ⟨c4, cs⟩⟩⟩⟩ <;> first | (exfalso; simp at h; done) | skip
    all_goals
      rcases ds with _ | ⟨d1, _ | ⟨d2, _ | ⟨d3, _ | ⟨d4, ds⟩⟩⟩⟩ <;> first | (exfalso; simp at h2; done) | rfl

theorem children_rebuild_snd {e : Expr} {cs : List Expr} (h : cs.length = (children e).length) : (children (rebuild e cs)).map (·.2) = cs := by
  rw [children_rebuild h]
  have : ∀ (l : List (List Name × Expr)) (cs : List Expr), cs.length = l.length → (List.zipWith (fun (c : List Name × Expr) x => (c.1, x)) l cs).map (·.2) = cs := by
    intro l
    induction l with
    | nil => intro cs h; cases cs with
      | nil => rfl
      | cons _ _ => simp at h
    | cons a l ih => intro cs h; cases cs with
      | nil => simp at h
      | cons c cs => simp only [List.zipWith_cons_cons, List.map_cons]; rw [ih cs (by simpa using h)]
  exact this _ _ h

theorem mapSt_length {σ : Type} {g : Expr → σ → Option (Expr × σ)} : ∀ {es : List Expr} {st : σ} {r : List Expr × σ}, mapSt g es st = some r → r.1.length = es.length
  | [], _, _, h => by cases h; rfl
  | e :: es, st, r, h => by
    simp only [mapSt] at h
    obtain ⟨r1, h1, h2⟩ := Option.bind_eq_some_iff.1 h
    obtain ⟨r2, h3, rfl⟩ := Option.map_eq_some_iff.1 h2
    simp [mapSt_length h3]

/-- The use walk never fails. -/
theorem usesN_some (m : Rws) : ∀ (n : Nat) (e : Expr) (g : Fresh), ∃ r, usesN m n e g = some r
  | 0, e, g => ⟨_, rfl⟩
  | n + 1, e, g => by
    have hL : ∀ (es : List Expr) (g : Fresh), ∃ r, mapSt (usesN m n) es g = some r := by
      intro es
      induction es with
      | nil => exact fun g => ⟨_, rfl⟩
      | cons e es ih =>
        intro g
        obtain ⟨r1, h1⟩ := usesN_some m n e g
        obtain ⟨r2, h2⟩ := ih r1.2
        exact ⟨_, by rw [mapSt, h1, Option.bind_some, h2]; rfl⟩
    obtain ⟨r, hr⟩ := hL ((children e).map (·.2)) g
    rw [usesN, hr, Option.bind_some]
    unfold rewriteExpr
    split
    · split
      · obtain ⟨is, is', us, g', h, -⟩ := rewriteUse_spec _ _ r.2
        exact ⟨_, h⟩
      · exact ⟨_, rfl⟩
    · exact ⟨_, rfl⟩

/-! ### Names after the use walk -/

/-- What holds before the use walk. -/
structure UPre (X : List Name) (e : Expr) (g : Fresh) : Prop where
  good : Good X e
  xlt : ∀ x : Nat, x ∈ X → x < g.names
  blt : ∀ y : Nat, 0 < cnt y e → y < g.names

/-- What holds after the use walk. -/
structure UPost (X : List Name) (e : Expr) (g : Fresh) (e' : Expr) (g' : Fresh) : Prop where
  good : Good X e'
  le : g.names ≤ g'.names
  cold : ∀ y : Nat, y < g.names → cnt y e' = cnt y e
  cnew : ∀ y : Nat, g'.names ≤ y → cnt y e' = 0
  recs : (recLam e).isSome = true → (recLam e').isSome = true

theorem mapSt_post {f : Expr → Fresh → Option (Expr × Fresh)} (hf : ∀ X e g e' g', UPre X e g → f e g = some (e', g') → UPost X e g e' g') {X : List Name} :
    ∀ (cs : List (List Name × Expr)) (g : Fresh) (es' : List Expr) (g' : Fresh), (∀ c ∈ cs, Good (c.1 ++ X) c.2) →
    (∀ c ∈ cs, ∀ y : Nat, y ∈ c.1 ++ X → y < g.names) → (∀ y : Nat, 0 < (cs.map fun c => cnt y c.2).sum → y < g.names) →
    mapSt f (cs.map (·.2)) g = some (es', g') →
    All2 (fun c e' => Good (c.1 ++ X) e' ∧ ((recLam c.2).isSome = true → (recLam e').isSome = true)) cs es' ∧ g.names ≤ g'.names ∧
    (∀ y : Nat, y < g.names → (es'.map (cnt y)).sum = (cs.map fun c => cnt y c.2).sum) ∧
    (∀ y : Nat, g.names ≤ y → (es'.map (cnt y)).sum ≤ 1) ∧ (∀ y : Nat, g'.names ≤ y → (es'.map (cnt y)).sum = 0) := by
  intro cs
  induction cs with
  | nil =>
    intro g es' g' _ _ _ h
    simp only [List.map_nil, mapSt, Option.some.injEq, Prod.mk.injEq] at h
    obtain ⟨rfl, rfl⟩ := h
    exact ⟨trivial, Nat.le_refl _, fun _ _ => by simp, fun _ _ => by simp, fun _ _ => by simp⟩
  | cons c cs ih =>
    intro g es' g' hgood hx hb h
    simp only [List.map_cons, mapSt] at h
    obtain ⟨⟨e1, g1⟩, h1, h2⟩ := Option.bind_eq_some_iff.1 h
    obtain ⟨⟨es2, g2⟩, h3, h4⟩ := Option.map_eq_some_iff.1 h2
    simp only [Prod.mk.injEq] at h4
    obtain ⟨rfl, rfl⟩ := h4
    simp only [List.map_cons, List.sum_cons] at hb
    have hp := hf _ _ _ _ _ ⟨hgood c (by simp), fun x hx' => hx c (by simp) x hx', fun y hy => hb y (by omega)⟩ h1
    obtain ⟨i1, i2, i3, i4, i5⟩ := ih g1 es2 g2 (fun d hd => hgood d (by simp [hd])) (fun d hd y hy => Nat.lt_of_lt_of_le (hx d (by simp [hd]) y hy) hp.le)
      (fun y hy => Nat.lt_of_lt_of_le (hb y (by omega)) hp.le) h3
    refine ⟨⟨⟨hp.good, hp.recs⟩, i1⟩, Nat.le_trans hp.le i2, fun y hy => ?_, fun y hy => ?_, fun y hy => ?_⟩
    · simp only [List.map_cons, List.sum_cons]
      rw [i3 y (Nat.lt_of_lt_of_le hy hp.le), hp.cold y hy]
    · simp only [List.map_cons, List.sum_cons]
      have hz : (cs.map fun c => cnt y c.2).sum = 0 := by
        by_cases hz : (cs.map fun c => cnt y c.2).sum = 0
        · exact hz
        · have := hb y (by omega); omega
      by_cases hlt : y < g1.names
      · have h2 := i3 y hlt
        have h3 := hp.good.uniq y
        omega
      · have h2 := i4 y (by omega)
        have h3 := hp.cnew y (by omega)
        omega
    · simp only [List.map_cons, List.sum_cons]
      have h2 := i5 y hy
      have h3 := hp.cnew y (Nat.le_trans i2 hy)
      omega

theorem rewriteExpr_other {m : Rws} {e : Expr} {g : Fresh} (h : ∀ x, e ≠ .name x) : rewriteExpr m e g = some (e, g) := by
  cases e <;> first | rfl | exact absurd rfl (h _)

theorem usesN_post (m : Rws) : ∀ (n : Nat) (X : List Name) (e : Expr) (g : Fresh) (e' : Expr) (g' : Fresh), UPre X e g → usesN m n e g = some (e', g') → UPost X e g e' g'
  | 0, X, e, g, e', g', hp, h => by
    simp only [usesN, Option.some.injEq, Prod.mk.injEq] at h
    obtain ⟨rfl, rfl⟩ := h
    exact ⟨hp.good, Nat.le_refl _, fun _ _ => rfl, fun y hy => by
      by_cases hz : cnt y e = 0
      · exact hz
      · have := hp.blt y (by omega); omega, id⟩
  | n + 1, X, e, g, e', g', hp, h => by
    rw [usesN] at h
    obtain ⟨⟨cs, g1⟩, h1, h2⟩ := Option.bind_eq_some_iff.1 h
    dsimp only at h2
    by_cases hn : ∃ x, e = .name x
    · obtain ⟨x, rfl⟩ := hn
      simp only [children, List.map_nil, mapSt, Option.some.injEq, Prod.mk.injEq] at h1
      obtain ⟨rfl, rfl⟩ := h1
      simp only [rebuild, rewriteExpr] at h2
      split at h2
      · rename_i r hr
        obtain ⟨is, is', us, g2, h3, h4, h5, h6⟩ := rewriteUse_spec x r g
        rw [h3] at h2
        simp only [Option.some.injEq, Prod.mk.injEq] at h2
        obtain ⟨rfl, rfl⟩ := h2
        refine ⟨good_use (hp.good.scope x (by simp [Free])) hp.xlt h6, h5, fun y hy => ?_, fun y hy => ?_, by simp [recLam, stripPis]⟩
        · rw [cnt_pis, cnt_useE]
          refine (List.count_eq_zero.2 fun hm => ?_).trans (by simp [cnt, binders])
          have := h6.range y hm; omega
        · rw [cnt_pis, cnt_useE]
          refine List.count_eq_zero.2 fun hm => ?_
          have := h6.range y hm; omega
      · simp only [Option.some.injEq, Prod.mk.injEq] at h2
        obtain ⟨rfl, rfl⟩ := h2
        exact ⟨hp.good, Nat.le_refl _, fun _ _ => rfl, fun _ _ => by simp [cnt, binders], id⟩
    · have hcnt : ∀ y, cnt y e = (own e).count y + ((children e).map fun c => cnt y c.2).sum := fun y => cnt_eq y e
      obtain ⟨i1, i2, i3, i4, i5⟩ := mapSt_post (usesN_post m n) (X := X) (children e) g cs g1 (fun c hc => hp.good.child hc)
        (fun c hc y hy => by
          rcases List.mem_append.1 hy with hy | hy
          · have h1 : 0 < (own e).count y := List.count_pos_iff.2 (own_of_scope hc hy)
            exact hp.blt y (by rw [hcnt]; omega)
          · exact hp.xlt y hy)
        (fun y hy => hp.blt y (by rw [hcnt]; omega)) h1
      have hlen := i1.length.symm
      rw [rewriteExpr_other fun x hx => hn ⟨x, rebuild_name hlen hx⟩] at h2
      simp only [Option.some.injEq, Prod.mk.injEq] at h2
      obtain ⟨rfl, rfl⟩ := h2
      have hge : ∀ y : Nat, g.names ≤ y → cnt y e = 0 := fun y hy => by
        by_cases hz : cnt y e = 0
        · exact hz
        · have := hp.blt y (by omega); omega
      refine ⟨good_rebuild hp.good (i1.imp fun _ _ h => h.1) (fun n t v b v' b' h1 h2 => ?_) (fun y => ?_) fun y hy => ?_, i2, fun y hy => ?_, fun y hy => ?_, fun hr => ?_⟩
      · subst h1; subst h2
        exact i1.1.2 (hp.good.recSome rfl)
      · by_cases hy : (y : Nat) < g.names
        · have := i3 y hy; have h2 := hp.good.uniq y; rw [hcnt] at h2; omega
        · have h3 := hge y (Nat.not_lt.1 hy); rw [hcnt] at h3; have := i4 y (Nat.not_lt.1 hy); omega
      · have h2 := hp.good.disj y hy
        rw [hcnt] at h2
        have := i3 y (hp.xlt y hy); omega
      · rw [cnt_rebuild hlen, hcnt, i3 y hy]
      · have h3 := hge y (Nat.le_trans i2 hy); rw [hcnt] at h3
        rw [cnt_rebuild hlen, i5 y hy]; omega
      · obtain ⟨⟨ps, b⟩, hr⟩ := Option.isSome_iff_exists.1 hr
        rcases recLam_cases hr with ⟨ps', rfl, rfl⟩ | ⟨a, e0, rfl, h0⟩
        · cases cs with
          | nil => exact i1.elim
          | cons b' cs => cases cs with
            | cons _ _ => exact i1.2.elim
            | nil => rw [rebuild, recLam_lam]; rfl
        · cases cs with
          | nil => exact i1.elim
          | cons b' cs => cases cs with
            | cons _ _ => exact i1.2.elim
            | nil => rw [rebuild, recLam_pi]; exact i1.1.2 (by rw [h0]; rfl)

/-! ### Collapsed expressions -/

mutual
/-- `e'` is `e` with the recursive functions recorded in `R` collapsed. -/
inductive Col (R : Name → Option (List Nat)) : Expr → Expr → Prop
  | node {e : Expr} {cs : List Expr} : (∀ y ∈ own e, R y = none) → ColL R ((children e).map (·.2)) cs → Col R e (rebuild e cs)
  | letrec {n : Name} {t t' : Ty} {vs : List TyVar} {g : List (Name × Ty)} {gs : List (List (Name × Ty))} {b b' e e' : Expr} :
      R n = some ((g :: gs).map List.length) → (∀ y ∈ (g :: gs).flatten.map (·.1), R y = none) → Col R b b' → Col R e e' →
      Col R (.letrec n t (pis vs (lams (g :: gs) b)) e) (.letrec n t' (pis vs (.lam (g :: gs).flatten b')) e')
/-- ... pointwise. -/
inductive ColL (R : Name → Option (List Nat)) : List Expr → List Expr → Prop
  | nil : ColL R [] []
  | cons {e e' : Expr} {es es' : List Expr} : Col R e e' → ColL R es es' → ColL R (e :: es) (e' :: es')
end

variable {R : Name → Option (List Nat)}

theorem ColL.length : ∀ {es es' : List Expr}, ColL R es es' → es.length = es'.length
  | _, _, .nil => rfl
  | _, _, .cons _ h => by simp [ColL.length h]

mutual
theorem Col.cnt : ∀ {e e' : Expr}, Col R e e' → ∀ y, cnt y e' = cnt y e
  | _, _, .node (e := e) (cs := cs) h1 h2, y => by
    have hlen : cs.length = (children e).length := by rw [← h2.length, List.length_map]
    rw [cnt_rebuild hlen, cnt_eq, h2.cnt y, List.map_map]; rfl
  | _, _, .letrec h1 h2 h3 h4, y => by
    rw [cnt_letrec, cnt_letrec, cnt_pis, cnt_pis, cnt_lam, cnt_lams, h3.cnt y, h4.cnt y]
theorem ColL.cnt : ∀ {es es' : List Expr}, ColL R es es' → ∀ y, (es'.map (Core.cnt y)).sum = (es.map (Core.cnt y)).sum
  | _, _, .nil, _ => rfl
  | _, _, .cons h1 h2, y => by simp only [List.map_cons, List.sum_cons, h1.cnt y, h2.cnt y]
end

theorem Col.recs {e e' : Expr} (h : Col R e e') : (recLam e).isSome = true → (recLam e').isSome = true := by
  induction e using Expr.childInd generalizing e' with
  | h e ih =>
  intro hr
  obtain ⟨⟨ps, b⟩, hr⟩ := Option.isSome_iff_exists.1 hr
  cases h with
  | letrec => simp [recLam, stripPis] at hr
  | node h1 h2 =>
    rcases recLam_cases hr with ⟨ps', rfl, rfl⟩ | ⟨a, e0, rfl, h0⟩
    · simp only [children, List.map_cons, List.map_nil] at h2
      cases h2 with
      | cons h3 h4 => cases h4; rw [rebuild, recLam_lam]; rfl
    · simp only [children, List.map_cons, List.map_nil] at h2
      cases h2 with
      | cons h3 h4 => cases h4; rw [rebuild, recLam_pi]; exact ih ([], e0) (by simp [children]) h3 (by rw [h0]; rfl)

theorem good_pis_iff {X : List Name} {e : Expr} {vs : List TyVar} : Good X (pis vs e) ↔ Good X e :=
  ⟨good_pis, fun h => ⟨fun y => by rw [cnt_pis]; exact h.uniq y, fun y hy => by rw [cnt_pis]; exact h.disj y hy,
    fun x hx => h.scope x (free_pis.1 hx), shaped_pis h.recs vs⟩⟩

mutual
theorem Col.good : ∀ {e e' : Expr}, Col R e e' → ∀ {X : List Name}, Good X e → Good X e'
  | _, _, .node (e := e) (cs := cs) h1 h2, X, hg => by
    have hlen : cs.length = (children e).length := by rw [← h2.length, List.length_map]
    have hcnt : ∀ y, (cs.map (Core.cnt y)).sum = ((children e).map fun c => Core.cnt y c.2).sum := fun y => by rw [h2.cnt y, List.map_map]; rfl
    refine good_rebuild hg (all2_child (P := fun X e e' => Good X e') (h2.good) fun c hc => hg.child hc) (fun n t v b v' b' he hc => ?_) (fun y => ?_) fun y hy => ?_
    · subst he; subst hc
      simp only [children, List.map_cons, List.map_nil] at h2
      cases h2 with
      | cons h3 h4 => exact h3.recs (hg.recSome rfl)
    · rw [hcnt, ← cnt_eq]; exact hg.uniq y
    · have := hg.disj y hy; rw [cnt_eq] at this; rw [hcnt]; omega
  | _, _, .letrec (n := n) (t := t) (t' := t') (vs := vs) (g := g) (gs := gs) (b := b) (b' := b') (e := e) (e' := e') h1 h2 h3 h4, X, hg => by
    have hcnt : ∀ y, Core.cnt y (.letrec n t' (pis vs (.lam (g :: gs).flatten b')) e') = Core.cnt y (.letrec n t (pis vs (lams (g :: gs) b)) e) := by
      intro y; rw [cnt_letrec, cnt_letrec, cnt_pis, cnt_pis, cnt_lam, cnt_lams, h3.cnt y, h4.cnt y]
    have hv := hg.child (c := ([n], pis vs (lams (g :: gs) b))) (by simp [children])
    have he := h4.good (hg.child (c := ([n], e)) (by simp [children]))
    have hb := h3.good (good_lams (good_pis hv))
    refine ⟨fun y => by rw [hcnt]; exact hg.uniq y, fun y hy => by rw [hcnt]; exact hg.disj y hy, fun x hx => ?_, ?_⟩
    · rw [Free] at hx
      obtain ⟨hne, hx⟩ := hx
      rcases hx with hx | hx
      · rw [free_pis, Free] at hx
        have := hb.scope x hx.2
        have h5 := (List.mem_append.1 this).resolve_left hx.1
        exact (List.mem_append.1 h5).resolve_left (by simpa using hne)
      · exact (List.mem_append.1 (he.scope x hx)).resolve_left (by simpa using hne)
    · rw [wellShaped_iff]
      refine ⟨?_, fun c hc => ?_⟩
      · show (recLam _).isSome = true
        rw [recLam_pis, recLam_lam]; rfl
      · simp only [children, List.mem_cons, List.not_mem_nil, or_false] at hc
        rcases hc with rfl | rfl
        · refine shaped_pis ?_ vs
          rw [wellShaped_iff]
          exact ⟨trivial, fun c hc => by simp only [children, List.mem_cons, List.not_mem_nil, or_false] at hc; subst hc; exact hb.recs⟩
        · exact he.recs
theorem ColL.good : ∀ {es es' : List Expr}, ColL R es es' → All2 (fun e e' => ∀ X, Good X e → Good X e') es es'
  | _, _, .nil => trivial
  | _, _, .cons h1 h2 => ⟨fun _ hg => h1.good hg, h2.good⟩
end

end Tic.Core
