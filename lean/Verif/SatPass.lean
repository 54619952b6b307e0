import Verif.SatSem
/-
Helper for saturation: what the pieces of the pass do to the syntax.
-/
namespace Tic.Core

/-! ### Collapsing -/

theorem pis_strip : ∀ (e : Expr), e = pis (piVars e) (stripPis e)
  | .pi v e => by rw [piVars, stripPis, pis, ← pis_strip e]
  | .bool _ | .int _ | .str _ | .name _ | .call _ _ | .ite _ _ _ | .op _ _ _ | .intr _ _ | .lam _ _ | .mtch _ _
  | .con _ _ _ | .let_ _ _ _ | .letrec _ _ _ _ | .piApp _ _ | .trap _ _ => rfl

theorem underPi_eq (f : Expr → Expr) : ∀ (e : Expr), underPi f e = pis (piVars e) (f (stripPis e))
  | .pi v e => by rw [piVars, stripPis, pis, underPi, underPi_eq f e]
  | .bool _ | .int _ | .str _ | .name _ | .call _ _ | .ite _ _ _ | .op _ _ _ | .intr _ _ | .lam _ _ | .mtch _ _
  | .con _ _ _ | .let_ _ _ _ | .letrec _ _ _ _ | .piApp _ _ | .trap _ _ => rfl

theorem lams_groups : ∀ (e : Expr), ∃ b, e = lams (lamGroups e) b ∧ ∀ acc, collapseLam acc e = .lam (acc ++ (lamGroups e).flatten) b
  | .lam ps b => by
    obtain ⟨c, h1, h2⟩ := lams_groups b
    refine ⟨c, by rw [lamGroups, lams, ← h1], fun acc => ?_⟩
    rw [collapseLam, h2, lamGroups, List.flatten_cons, List.append_assoc]
  | .bool _ | .int _ | .str _ | .name _ | .call _ _ | .ite _ _ _ | .op _ _ _ | .intr _ _ | .pi _ _ | .mtch _ _
  | .con _ _ _ | .let_ _ _ _ | .letrec _ _ _ _ | .piApp _ _ | .trap _ _ => ⟨_, rfl, fun acc => by simp [collapseLam, lamGroups]⟩

theorem checkForRewrite_some {t t' : Ty} {e e' : Expr} {r : Rewrite} (h : checkForRewrite t e = some (r, t', e')) :
    ∃ vs g gs b, e = pis vs (lams (g :: gs) b) ∧ e' = pis vs (.lam (g :: gs).flatten b) ∧
      r.groups.map List.length = (g :: gs).map List.length := by
  unfold checkForRewrite at h
  simp only at h
  split at h
  · cases h
  split at h
  · cases h
  split at h
  · cases h
  rename_i h1 h2 h3
  simp only [Option.some.injEq, Prod.mk.injEq] at h
  obtain ⟨rfl, -, rfl⟩ := h
  obtain ⟨b, hb, hc⟩ := lams_groups (stripPis e)
  have h3 := Decidable.not_not.1 h3
  cases hg : lamGroups (stripPis e) with
  | nil =>
    rw [hg] at h3
    have := congrArg List.length h3
    simp at this; simp [this] at h1
  | cons g gs =>
    refine ⟨piVars e, g, gs, b, ?_, ?_, by rw [← hg]; exact h3⟩
    · rw [← hg, ← hb]; exact pis_strip e
    · rw [underPi_eq, hc, hg]; rfl

/-! ### Adapted uses -/

theorem useParams_spec (sub : Ty → Ty) : ∀ (ts : List Ty) (n : Nat), (useParams sub ts n).1.map (·.1) = (List.range ts.length).map (n + ·) ∧
    (useParams sub ts n).2 = n + ts.length
  | [], n => ⟨rfl, rfl⟩
  | t :: ts, n => by
    obtain ⟨h1, h2⟩ := useParams_spec sub ts (n + 1)
    refine ⟨?_, by simp only [useParams, h2, List.length_cons]; omega⟩
    simp only [useParams, List.map_cons, h1, List.length_cons, List.range_succ_eq_map, Nat.add_zero, List.map_map, List.cons.injEq, true_and]
    exact List.map_congr_left fun i _ => by simp; omega

/-- The names of an adapted use are new and different. -/
structure NewNames (us : List (List (Name × Ty))) (lo hi : Nat) : Prop where
  nodup : (us.flatten.map (·.1)).Nodup
  range : ∀ y : Nat, y ∈ us.flatten.map (·.1) → lo ≤ y ∧ y < hi

theorem lams_append (b : Expr) (g : List (Name × Ty)) : ∀ (gs : List (List (Name × Ty))), lams (gs ++ [g]) b = lams gs (.lam g b)
  | [] => rfl
  | h :: gs => by rw [List.cons_append, lams, lams, lams_append b g gs]

theorem useGroups_spec (sub : Ty → Ty) : ∀ (rs : List (List Ty)) (res : Expr) (extra : List Name) (n : Nat),
    ∃ us : List (List (Name × Ty)), us.map List.length = rs.reverse.map List.length ∧ (useGroups sub rs res extra n).1 = lams us res ∧
      (useGroups sub rs res extra n).2.1 = extra ++ (us.flatten.map (·.1)).reverse ∧ n ≤ (useGroups sub rs res extra n).2.2 ∧
      NewNames us n (useGroups sub rs res extra n).2.2
  | [], res, extra, n => ⟨[], rfl, rfl, by simp [useGroups], Nat.le_refl _, ⟨by simp, by simp⟩⟩
  | g :: rs, res, extra, n => by
    obtain ⟨hp1, hp2⟩ := useParams_spec sub g n
    obtain ⟨us, h1, h2, h3, h4, h5⟩ := useGroups_spec sub rs (.lam (useParams sub g n).1 res) (extra ++ ((useParams sub g n).1.map (·.1)).reverse) (useParams sub g n).2
    rw [hp2] at h4 h5
    have hlen : (useParams sub g n).1.length = g.length := by
      have := congrArg List.length hp1; simpa using this
    refine ⟨us ++ [(useParams sub g n).1], ?_, ?_, ?_, ?_, ?_, ?_⟩
    · simp [h1, hlen]
    · rw [lams_append]; exact h2
    · rw [show (useGroups sub (g :: rs) res extra n).2.1 = _ from h3]; simp
    · show n ≤ (useGroups sub rs (.lam (useParams sub g n).1 res) (extra ++ ((useParams sub g n).1.map (·.1)).reverse) (useParams sub g n).2).2.2
      rw [hp2]; exact Nat.le_trans (Nat.le_add_right _ _) h4
    · simp only [List.flatten_append, List.flatten_cons, List.flatten_nil, List.append_nil, List.map_append]
      rw [List.nodup_append]
      refine ⟨h5.nodup, ?_, fun a ha b hb hab => ?_⟩
      · rw [hp1]
        exact nodup_map_on List.nodup_range fun x _ y _ h => Nat.add_left_cancel h
      · subst hab
        rw [hp1] at hb
        obtain ⟨i, hi, rfl⟩ := List.mem_map.1 hb
        have := (h5.range _ ha).1
        have := List.mem_range.1 hi
        omega
    · intro y hy
      simp only [List.flatten_append, List.flatten_cons, List.flatten_nil, List.append_nil, List.map_append, List.mem_append] at hy
      show n ≤ y ∧ y < (useGroups sub rs (.lam (useParams sub g n).1 res) (extra ++ ((useParams sub g n).1.map (·.1)).reverse) (useParams sub g n).2).2.2
      rw [hp2]
      rcases hy with hy | hy
      · have := h5.range y hy; omega
      · rw [hp1] at hy
        obtain ⟨i, hi, rfl⟩ := List.mem_map.1 hy
        have := List.mem_range.1 hi
        omega

theorem addArgs_lams (args : List Name) (f : Expr) : ∀ (us : List (List (Name × Ty))),
    addArgs args (lams us (.call f [])) = some (lams us (.call f (args.map .name)))
  | [] => by simp [lams, addArgs]
  | u :: us => by rw [lams, addArgs, addArgs_lams args f us]; rfl

theorem foldl_piApps : ∀ (is : List TyVar) (e : Expr), is.foldl (fun e v => .piApp e (.var v)) e = piApps is e
  | [], _ => rfl
  | _ :: is, e => foldl_piApps is _

theorem foldl_pis (e : Expr) : ∀ (is : List TyVar), is.reverse.foldl (fun e v => .pi v e) e = pis is e
  | [] => rfl
  | i :: is => by rw [List.reverse_cons, List.foldl_append, foldl_pis e is]; rfl

theorem rewriteUse_spec (x : Name) (r : Rewrite) (g : Fresh) : ∃ is is' us g', rewriteUse x r g = some (pis is' (useE x is (us.flatten.map (·.1)) us), g') ∧
    us.map List.length = r.groups.map List.length ∧ g.names ≤ g'.names ∧ NewNames us g.names g'.names := by
  unfold rewriteUse
  simp only
  obtain ⟨us, h1, h2, h3, h4, h5⟩ := useGroups_spec
    (fun t => (r.vars.zip ((List.range r.vars.length).map (g.tys + ·))).foldl (fun t p => satTy p.1 (.var p.2) t) t) r.groups.reverse
    (.call (((List.range r.vars.length).map (g.tys + ·)).foldl (fun e v => .piApp e (.var v)) (.name x)) []) [] g.names
  refine ⟨(List.range r.vars.length).map (g.tys + ·), (List.range r.vars.length).map (g.tys + ·), us, ⟨_, g.tys + r.vars.length⟩, ?_, ?_, h4, h5⟩
  · rw [h2, h3, addArgs_lams, List.nil_append, List.reverse_reverse, Option.map_some, foldl_pis, foldl_piApps]
    rfl
  · rw [h1, List.reverse_reverse]

/-! ### Shape of the adapted uses -/

theorem cnt_piApps (y : Name) : ∀ (is : List TyVar) (e : Expr), cnt y (piApps is e) = cnt y e
  | [], _ => rfl
  | i :: is, e => by rw [piApps, cnt_piApps y is, cnt_eq]; simp [own, children]

theorem cnt_useE (x y : Name) (is : List TyVar) (args : List Name) (us : List (List (Name × Ty))) :
    cnt y (useE x is args us) = (us.flatten.map (·.1)).count y := by
  rw [useE, cnt_lams, cnt_eq]
  simp only [own, children, List.count_nil, List.map_cons, List.sum_cons, cnt_piApps, List.map_map]
  have h1 : cnt y (.name x) = 0 := by simp [cnt, binders]
  have h2 : (List.map ((fun c : List Name × Expr => cnt y c.2) ∘ (fun x => (([] : List Name), x)) ∘ Expr.name) args).sum = 0 := by
    induction args with
    | nil => rfl
    | cons a args ih => simp only [List.map_cons, List.sum_cons, ih]; simp [cnt, binders]
  rw [h1, h2]; omega

theorem free_pis {y : Name} {e : Expr} : ∀ {is : List TyVar}, Free y (pis is e) ↔ Free y e
  | [] => Iff.rfl
  | _ :: is => by rw [pis, Free]; exact free_pis (is := is)
theorem free_piApps {y : Name} : ∀ {is : List TyVar} {e : Expr}, Free y (piApps is e) ↔ Free y e
  | [], _ => Iff.rfl
  | _ :: is, e => by rw [piApps, free_piApps (is := is), Free]
theorem free_lams {y : Name} {b : Expr} : ∀ {gs : List (List (Name × Ty))}, Free y (lams gs b) ↔ y ∉ gs.flatten.map (·.1) ∧ Free y b
  | [] => by simp [lams]
  | g :: gs => by
    rw [lams, Free, free_lams (gs := gs)]
    simp only [List.flatten_cons, List.map_append, List.mem_append, not_or, and_assoc]

theorem free_useE {x y : Name} {is : List TyVar} {us : List (List (Name × Ty))} (h : Free y (useE x is (us.flatten.map (·.1)) us)) : y = x := by
  rw [useE, free_lams] at h
  obtain ⟨h1, h2⟩ := h
  rw [Free] at h2
  rcases h2 with h2 | h2
  · rw [free_piApps] at h2; exact h2
  · obtain ⟨e, he, hf⟩ := FreeL_iff.1 h2
    obtain ⟨z, hz, rfl⟩ := List.mem_map.1 he
    rw [Free] at hf; subst hf
    exact absurd hz h1

theorem shaped_pis {e : Expr} (h : WellShaped e) : ∀ (is : List TyVar), WellShaped (pis is e)
  | [] => h
  | i :: is => by
    rw [wellShaped_iff]
    exact ⟨trivial, fun c hc => by simp [pis, children] at hc; subst hc; exact shaped_pis h is⟩
theorem shaped_piApps : ∀ (is : List TyVar) {e : Expr}, WellShaped e → WellShaped (piApps is e)
  | [], _, h => h
  | i :: is, e, h => shaped_piApps is (by
      rw [wellShaped_iff]
      exact ⟨trivial, fun c hc => by simp [children] at hc; subst hc; exact h⟩)
theorem shaped_lams {b : Expr} (h : WellShaped b) : ∀ (gs : List (List (Name × Ty))), WellShaped (lams gs b)
  | [] => h
  | g :: gs => by
    rw [wellShaped_iff]
    exact ⟨trivial, fun c hc => by simp [lams, children] at hc; subst hc; exact shaped_lams h gs⟩
theorem shaped_name (x : Name) : WellShaped (.name x) := by
  rw [wellShaped_iff]; simp [children, NodeOK]

theorem shaped_useE (x : Name) (is : List TyVar) (args : List Name) (us : List (List (Name × Ty))) : WellShaped (useE x is args us) := by
  refine shaped_lams ?_ us
  rw [wellShaped_iff]
  refine ⟨trivial, fun c hc => ?_⟩
  simp only [children, List.mem_cons, List.map_map, List.mem_map] at hc
  rcases hc with rfl | ⟨y, -, rfl⟩
  · exact shaped_piApps is (shaped_name x)
  · exact shaped_name y

theorem good_use {X : List Name} {x : Name} {is is' : List TyVar} {us : List (List (Name × Ty))} {lo hi : Nat} (hx : x ∈ X) (hX : ∀ y : Nat, y ∈ X → y < lo)
    (h : NewNames us lo hi) : Good X (pis is' (useE x is (us.flatten.map (·.1)) us)) := by
  refine ⟨fun y => ?_, fun y hy => ?_, fun y hy => ?_, shaped_pis (shaped_useE _ _ _ _) _⟩
  · rw [cnt_pis, cnt_useE]; exact List.nodup_iff_count.1 h.nodup y
  · rw [cnt_pis, cnt_useE]
    refine List.count_eq_zero.2 fun hm => ?_
    have := h.range y hm
    exact absurd (hX y hy) (Nat.not_lt.2 this.1)
  · rw [free_pis] at hy; rw [free_useE hy]; exact hx

end Tic.Core
