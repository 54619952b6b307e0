import Verif.Dce
import Verif.InlineSimpleOK
/-
Helper: dead code elimination.
-/
namespace Tic.Core

variable {s : Mode} {X : List Name}

/-! ### Visiting -/

theorem subE_iff {e' e : Expr} : SubE e' e ↔ e' = e ∨ ∃ c ∈ children e, SubE e' c.2 := by
  constructor
  · intro h
    cases h with
    | refl => exact .inl rfl
    | step hc h => exact .inr ⟨_, hc, h⟩
  · rintro (rfl | ⟨c, hc, h⟩)
    · exact .refl
    · exact .step hc h

theorem SubE.trans {a b c : Expr} (h : SubE a b) (h' : SubE b c) : SubE a c := by
  induction h' with
  | refl => exact h
  | step hc _ ih => exact .step hc ih

theorem mem_visitN {e' : Expr} : ∀ {n : Nat} {e : Expr}, esize e ≤ n → (e' ∈ visitN n e ↔ SubE e' e)
  | 0, e, h => by have := esize_pos e; omega
  | n + 1, e, h => by
    rw [visitN, List.mem_cons, List.mem_flatMap, subE_iff]
    refine or_congr Iff.rfl ⟨fun ⟨c, hc, h'⟩ => ⟨c, hc, ?_⟩, fun ⟨c, hc, h'⟩ => ⟨c, hc, ?_⟩⟩ <;> have := mem_children_esize hc
    · exact (mem_visitN (by omega)).1 h'
    · exact (mem_visitN (by omega)).2 h'

theorem visitN_stable : ∀ (n m : Nat) (e : Expr), esize e ≤ n → esize e ≤ m → visitN n e = visitN m e
  | 0, _, e, h, _ => by have := esize_pos e; omega
  | n + 1, 0, e, _, h => by have := esize_pos e; omega
  | n + 1, m + 1, e, hn, hm => by
    rw [visitN, visitN]
    congr 1
    rw [List.flatMap, List.flatMap]
    congr 1
    refine List.map_congr_left fun c hc => ?_
    have := mem_children_esize hc
    exact visitN_stable n m c.2 (by omega) (by omega)

/-- The bound in `visit` is never reached: this is the recursion of `walk_expressions`. -/
theorem visit_eq (e : Expr) : visit e = e :: (children e).flatMap fun c => visit c.2 := by
  have := visitN_stable (esize e) (esize e + 1) e (Nat.le_refl _) (by omega)
  rw [visit, this, visitN]
  congr 1
  rw [List.flatMap, List.flatMap]
  congr 1
  refine List.map_congr_left fun c hc => ?_
  have := mem_children_esize hc
  exact visitN_stable _ _ c.2 (by omega) (Nat.le_refl _)

theorem mem_visit {e' e : Expr} : e' ∈ visit e ↔ SubE e' e := mem_visitN (Nat.le_refl _)

theorem mem_namesOf {x : Name} {e : Expr} : x ∈ namesOf e ↔ SubE (.name x) e := by
  rw [namesOf, List.mem_filterMap]
  constructor
  · rintro ⟨a, ha, h⟩
    split at h
    · cases h; exact mem_visit.1 ha
    · cases h
  · intro h
    exact ⟨.name x, mem_visit.2 h, rfl⟩

theorem mem_letsOf {n : Name} {v e : Expr} : (n, v) ∈ letsOf e ↔ ∃ r, SubE (.let_ n v r) e := by
  rw [letsOf, List.mem_filterMap]
  constructor
  · rintro ⟨a, ha, h⟩
    split at h
    · cases h; exact ⟨_, mem_visit.1 ha⟩
    · cases h
  · rintro ⟨r, h⟩
    exact ⟨.let_ n v r, mem_visit.2 h, rfl⟩

theorem SubE.of_free {x : Name} {e : Expr} (h : Free x e) : SubE (.name x) e := by
  induction e using Expr.childInd with
  | _ e ih =>
    rcases free_iff.1 h with rfl | ⟨c, hc, -, hf⟩
    · exact .refl
    · exact .step hc (ih c hc hf)

theorem binder_of_let {n : Name} {v r e : Expr} (h : SubE (.let_ n v r) e) : n ∈ binders e := by
  induction h with
  | refl => exact own_sub_binders (by simp [own])
  | step hc _ ih => exact child_sub_binders hc ih

/-! ### The loop -/

theorem lastGet_mem {x : Name} {l : List (Name × Expr)} {v : Expr} (h : lastGet x l = some v) : (x, v) ∈ l := by
  unfold lastGet at h
  obtain ⟨a, ha, rfl⟩ := Option.map_eq_some_iff.1 h
  have h1 := List.mem_of_find?_eq_some ha
  have h2 := List.find?_some ha
  simp only [decide_eq_true_eq] at h2
  rw [← h2]
  exact List.mem_reverse.1 h1

theorem lastGet_none {x : Name} {l : List (Name × Expr)} (h : lastGet x l = none) : ∀ v, (x, v) ∉ l := by
  unfold lastGet at h
  rw [Option.map_eq_none_iff, List.find?_eq_none] at h
  intro v hv
  exact h (x, v) (List.mem_reverse.2 hv) (by simp)

theorem sum_filter_step {x : Name} {v : Expr} {used : List Name} (hx : x ∉ used) : ∀ {l : List (Name × Expr)}, (x, v) ∈ l →
    ((l.filter fun a => a.1 ∉ x :: used).map fun a => (namesOf a.2).length).sum + (namesOf v).length ≤
    ((l.filter fun a => a.1 ∉ used).map fun a => (namesOf a.2).length).sum
  | a :: l, h => by
    have hmono : ((l.filter fun a => a.1 ∉ x :: used).map fun a => (namesOf a.2).length).sum ≤
        ((l.filter fun a => a.1 ∉ used).map fun a => (namesOf a.2).length).sum := by
      clear h
      induction l with
      | nil => simp
      | cons b l ih =>
        by_cases h1 : b.1 ∈ used
        · simpa [List.filter_cons, h1] using ih
        · by_cases h2 : b.1 = x
          · simp [List.filter_cons, h1, h2, hx] at ih ⊢; omega
          · simp [List.filter_cons, h1, h2] at ih ⊢; omega
    rcases List.mem_cons.1 h with rfl | h
    · simp [List.filter_cons, hx] at hmono ⊢; omega
    · have ih := sum_filter_step hx h
      by_cases h1 : a.1 ∈ used
      · simpa [List.filter_cons, h1] using ih
      · by_cases h2 : a.1 = x
        · simp [List.filter_cons, h1, h2, hx] at ih ⊢; omega
        · simp [List.filter_cons, h1, h2] at ih ⊢; omega

theorem dceLoop_spec {all : List (Name × Expr)} : ∀ (n : Nat) (pending used : List Name),
    pending.length + ((all.filter fun a => a.1 ∉ used).map fun a => (namesOf a.2).length).sum ≤ n →
    (∀ x ∈ used, ∀ v, lastGet x all = some v → ∀ y ∈ namesOf v, y ∈ used ∨ y ∈ pending) →
    (∀ x ∈ used, x ∈ dceLoop all n pending used) ∧ (∀ x ∈ pending, x ∈ dceLoop all n pending used) ∧
    (∀ x ∈ dceLoop all n pending used, ∀ v, lastGet x all = some v → ∀ y ∈ namesOf v, y ∈ dceLoop all n pending used) ∧
    ∀ P : Name → Prop, (∀ x ∈ used, P x) → (∀ x ∈ pending, P x) →
      (∀ x, P x → ∀ v, lastGet x all = some v → ∀ y ∈ namesOf v, P y) → ∀ x ∈ dceLoop all n pending used, P x := by
  intro n
  induction n with
  | zero =>
    intro pending used hn hI
    have : pending = [] := List.length_eq_zero_iff.1 (by omega)
    subst this
    simp only [dceLoop]
    exact ⟨fun _ h => h, by simp, fun x hx v hv y hy => by simpa using hI x hx v hv y hy, fun P h _ _ => h⟩
  | succ n ih =>
    intro pending used hn hI
    cases pending with
    | nil =>
      simp only [dceLoop]
      exact ⟨fun _ h => h, by simp, fun x hx v hv y hy => by simpa using hI x hx v hv y hy, fun P h _ _ => h⟩
    | cons x pending =>
      simp only [List.length_cons] at hn
      rw [dceLoop]
      by_cases hx : x ∈ used
      · rw [if_pos hx]
        obtain ⟨h1, h2, h3, h4⟩ := ih pending used (by omega) fun z hz v hv y hy => by
          rcases hI z hz v hv y hy with h | h
          · exact .inl h
          · rcases List.mem_cons.1 h with rfl | h
            · exact .inl hx
            · exact .inr h
        refine ⟨h1, fun y hy => ?_, h3, fun P hu hp hc => h4 P hu (fun y hy => hp y (by simp [hy])) hc⟩
        rcases List.mem_cons.1 hy with rfl | h
        · exact h1 _ hx
        · exact h2 _ h
      · rw [if_neg hx]
        cases hg : lastGet x all with
        | some v =>
          have hs := sum_filter_step hx (lastGet_mem hg)
          obtain ⟨h1, h2, h3, h4⟩ := ih ((namesOf v).reverse ++ pending) (x :: used) (by
            simp only [List.length_append, List.length_reverse]; omega) fun z hz w hw y hy => by
            rcases List.mem_cons.1 hz with rfl | hz
            · rw [hg] at hw; cases hw
              right; simp [hy]
            · rcases hI z hz w hw y hy with h | h
              · left; simp [h]
              · rcases List.mem_cons.1 h with rfl | h
                · left; simp
                · right; simp [h]
          refine ⟨fun y hy => h1 y (by simp [hy]), fun y hy => ?_, h3, fun P hu hp hc => h4 P ?_ ?_ hc⟩
          · rcases List.mem_cons.1 hy with rfl | h
            · exact h1 _ (by simp)
            · exact h2 _ (by simp [h])
          · intro y hy
            rcases List.mem_cons.1 hy with rfl | h
            · exact hp _ (by simp)
            · exact hu _ h
          · intro y hy
            rcases List.mem_append.1 hy with h | h
            · exact hc x (hp x (by simp)) v hg y (List.mem_reverse.1 h)
            · exact hp y (by simp [h])
        | none =>
          have hmono : ((all.filter fun a => a.1 ∉ x :: used).map fun a => (namesOf a.2).length).sum ≤
              ((all.filter fun a => a.1 ∉ used).map fun a => (namesOf a.2).length).sum := by
            have : (all.filter fun a => a.1 ∉ x :: used) = all.filter fun a => a.1 ∉ used := by
              refine List.filter_congr fun a ha => ?_
              have : a.1 ≠ x := fun he => lastGet_none hg a.2 (by rw [← he]; exact ha)
              simp [this]
            rw [this]; exact Nat.le_refl _
          obtain ⟨h1, h2, h3, h4⟩ := ih pending (x :: used) (by omega) fun z hz w hw y hy => by
            rcases List.mem_cons.1 hz with rfl | hz
            · rw [hg] at hw; cases hw
            · rcases hI z hz w hw y hy with h | h
              · left; simp [h]
              · rcases List.mem_cons.1 h with rfl | h
                · left; simp
                · right; exact h
          refine ⟨fun y hy => h1 y (by simp [hy]), fun y hy => ?_, h3, fun P hu hp hc => h4 P ?_ (fun y hy => hp y (by simp [hy])) hc⟩
          · rcases List.mem_cons.1 hy with rfl | h
            · exact h1 _ (by simp)
            · exact h2 _ h
          · intro y hy
            rcases List.mem_cons.1 hy with rfl | h
            · exact hp _ (by simp)
            · exact hu _ h

/-- The result of the loop: contains the exported names, is closed, and is the least such set. -/
theorem dceUsed_spec (p : Program) :
    (∀ d ∈ p.defs, d.exportName.isSome = true → d.name ∈ dceUsed p) ∧
    (∀ x ∈ dceUsed p, ∀ v, lastGet x (allDefs p) = some v → ∀ y, SubE (.name y) v → y ∈ dceUsed p) ∧
    ∀ P : Name → Prop, (∀ d ∈ p.defs, d.exportName.isSome = true → P d.name) →
      (∀ x, P x → ∀ v, (x, v) ∈ allDefs p → ∀ y, SubE (.name y) v → P y) → ∀ x ∈ dceUsed p, P x := by
  obtain ⟨-, h2, h3, h4⟩ := dceLoop_spec (all := allDefs p) (dceFuel p) (dceRoots p) [] (by
    have : ((allDefs p).filter fun a => decide (a.1 ∉ ([] : List Name))) = allDefs p := by
      rw [List.filter_eq_self]; simp
    rw [this, dceFuel]; exact Nat.le_refl _) (by simp)
  have hroot : ∀ x, x ∈ dceRoots p ↔ ∃ d ∈ p.defs, d.exportName.isSome = true ∧ d.name = x := by
    intro x; simp only [dceRoots, List.mem_reverse, List.mem_map, List.mem_filter, and_assoc]
  refine ⟨fun d hd he => h2 _ ((hroot _).2 ⟨d, hd, he, rfl⟩), fun x hx v hv y hy => h3 x hx v hv y (mem_namesOf.2 hy), ?_⟩
  intro P hP hc
  refine h4 P (by simp) (fun x hx => ?_) fun x hx v hv y hy => hc x hx v (lastGet_mem hv) y (mem_namesOf.1 hy)
  obtain ⟨d, hd, he, rfl⟩ := (hroot x).1 hx
  exact hP d hd he

/-! ### Removing unused local definitions -/

/-- All names mentioned in `e` are in `used`. -/
def OccIn (used : List Name) (e : Expr) : Prop := ∀ x, SubE (.name x) e → x ∈ used

theorem OccIn.child {used : List Name} {e : Expr} (h : OccIn used e) {c : List Name × Expr} (hc : c ∈ children e) : OccIn used c.2 :=
  fun x hx => h x (.step hc hx)

theorem OccIn.drop {used : List Name} {e : Expr} (h : OccIn used e) : OccIn used (dropUnused used e) := by
  induction e using Expr.childInd with
  | _ e ih =>
    unfold dropUnused
    split
    · rename_i n v r
      split
      · exact h
      · exact ih ([n], r) (by simp [children]) (h.child (by simp [children]))
    · exact h

open Classical in
/-- The step, restricted to the expressions it is meant for. -/
noncomputable def dropStep (used : List Name) (e : Expr) : Expr := if OccIn used e then dropUnused used e else e

theorem walkPreN_drop {used : List Name} : ∀ (n : Nat) (e : Expr), OccIn used e →
    walkPreN n (dropUnused used) e = walkPreN n (dropStep used) e := by
  intro n
  induction n with
  | zero => intro e _; rfl
  | succ n ih =>
    intro e he
    rw [walkPreN, walkPreN, dropStep, if_pos he]
    exact mapSub_congr fun c hc => ih c.2 (he.drop.child hc)

theorem le_drop_let (hs : s.Lax) {n : Name} {v r : Expr} (hn : ¬ Free n r) (hr : ∀ x, Free x r → x ∈ n :: X) : Le s X (.let_ n v r) r := by
  intro k ρ ρ' hρ j hj f
  cases f with
  | zero => exact CE.timeout
  | succ f =>
    simp only [evalC]
    refine ce_skip hs fun w hw hl => ?_
    refine fund r (k := j - (evalC f ρ v).1) (fun x hx => ?_) _ (Nat.le_refl _) f
    have hne : x ≠ n := fun he => hn (he ▸ hx)
    exact ((hρ x ((List.mem_cons.1 (hr x hx)).resolve_left hne)).mono (by omega)).congr (by rw [lookup, if_neg (Ne.symm hne)]) rfl

theorem drop_ok (hs : s.Lax) {used : List Name} (e : Expr) : ∀ (X : List Name), OccIn used e → Good X e →
    LeD true s X e (dropUnused used e) ∧ Good X (dropUnused used e) ∧ ∀ y, cnt y (dropUnused used e) ≤ cnt y e := by
  induction e using Expr.childInd with
  | _ e ih =>
    intro X hu h
    unfold dropUnused
    split
    · rename_i n v r
      split
      · exact tri_refl h
      · rename_i hn
        obtain ⟨h1, h2, h3, h4, h5⟩ := good_let.1 h
        have hnf : ¬ Free n r := fun hf => hn (hu n (.step (c := ([n], r)) (by simp [children]) (.of_free hf)))
        have hsc : ∀ x, Free x r → x ∈ X := fun x hx =>
          (List.mem_cons.1 (h2.scope x hx)).resolve_left fun he => hnf (he ▸ hx)
        have hgr : Good X r := ⟨h2.uniq, fun y hy => h2.disj y (by simp [hy]), hsc, h2.recs⟩
        obtain ⟨a1, a2, a3⟩ := ih ([n], r) (by simp [children]) X (hu.child (by simp [children])) hgr
        refine ⟨LeD.trans (d := true) (le_drop_let hs hnf h2.scope) a1, a2, fun y => ?_⟩
        have := a3 y
        rw [cnt_let]; simp only at this; omega
    · exact tri_refl h

theorem stepOK_drop (hs : s.Lax) (used : List Name) : StepOK true s (dropStep used) := by
  refine ⟨fun X e h => ?_, fun ps b => ⟨ps, ?_, rfl⟩, fun v e => ?_⟩
  · unfold dropStep
    split
    · exact drop_ok hs e X ‹_› h
    · exact tri_refl h
  · unfold dropStep; split <;> rfl
  · unfold dropStep; split <;> rfl

theorem removeUnused_eq {used : List Name} {e : Expr} (h : OccIn used e) : removeUnused used e = walkPreN (esize e) (dropStep used) e :=
  walkPreN_drop _ _ h

/-! ### Programs -/

theorem mem_allDefs {p : Program} {x : Name} {v : Expr} : (x, v) ∈ allDefs p ↔
    (∃ d ∈ p.defs, d.name = x ∧ d.value = v) ∨ ∃ d ∈ p.defs, ∃ r, SubE (.let_ x v r) d.value := by
  simp only [allDefs, List.mem_flatMap, List.mem_cons, Prod.mk.injEq, mem_letsOf]
  constructor
  · rintro ⟨d, hd, ⟨rfl, rfl⟩ | h⟩
    · exact .inl ⟨d, hd, rfl, rfl⟩
    · exact .inr ⟨d, hd, h⟩
  · rintro (⟨d, hd, rfl, rfl⟩ | ⟨d, hd, h⟩)
    · exact ⟨d, hd, .inl ⟨rfl, rfl⟩⟩
    · exact ⟨d, hd, .inr h⟩

theorem flatMap_owner {α : Type} {f : α → List Name} : ∀ {l : List α}, (l.flatMap f).Nodup → ∀ {a b : α}, a ∈ l → b ∈ l →
    ∀ {x : Name}, x ∈ f a → x ∈ f b → a = b
  | [], _, _, _, h, _, _, _, _ => by cases h
  | c :: l, hn, a, b, ha, hb, x, hxa, hxb => by
    rw [List.flatMap_cons, List.nodup_append] at hn
    rcases List.mem_cons.1 ha with h1 | h1 <;> rcases List.mem_cons.1 hb with h2 | h2
    · rw [h1, h2]
    · subst h1; exact absurd rfl (hn.2.2 x hxa x (List.mem_flatMap.2 ⟨b, h2, hxb⟩))
    · subst h2; exact absurd rfl (hn.2.2 x hxb x (List.mem_flatMap.2 ⟨a, h1, hxa⟩))
    · exact flatMap_owner hn.2.1 h1 h2 hxa hxb

theorem flatMap_part {α : Type} {f : α → List Name} : ∀ {l : List α}, (l.flatMap f).Nodup → ∀ {a : α}, a ∈ l → (f a).Nodup
  | [], _, _, h => by cases h
  | c :: l, hn, a, ha => by
    rw [List.flatMap_cons, List.nodup_append] at hn
    rcases List.mem_cons.1 ha with h1 | h1
    · rw [h1]; exact hn.1
    · exact flatMap_part hn.2.1 h1

theorem WellNamed.owner {p : Program} (h : WellNamed p) {d d' : ValueDef} (hd : d ∈ p.defs) (hd' : d' ∈ p.defs) {x : Name}
    (hx : x ∈ d.name :: binders d.value) (hx' : x ∈ d'.name :: binders d'.value) : d = d' :=
  flatMap_owner h.uniq hd hd' hx hx'

theorem WellNamed.name_not_binder {p : Program} (h : WellNamed p) {d d' : ValueDef} (hd : d ∈ p.defs) (hd' : d' ∈ p.defs) :
    d.name ∉ binders d'.value := by
  intro hx
  have := h.owner hd hd' (by simp) (List.mem_cons_of_mem _ hx)
  subst this
  have := flatMap_part h.uniq hd
  simp only [List.nodup_cons] at this
  exact this.1 hx

theorem WellNamed.get {p : Program} (h : WellNamed p) {d : ValueDef} (hd : d ∈ p.defs) : lastGet d.name (allDefs p) = some d.value := by
  cases hg : lastGet d.name (allDefs p) with
  | none => exact absurd (mem_allDefs.2 (.inl ⟨d, hd, rfl, rfl⟩)) (lastGet_none hg d.value)
  | some w =>
    rcases mem_allDefs.1 (lastGet_mem hg) with ⟨d', hd', h1, h2⟩ | ⟨d', hd', r, h1⟩
    · have := h.owner hd hd' (x := d.name) (by simp) (by simp [h1])
      rw [this, h2]
    · exact absurd (binder_of_let h1) (h.name_not_binder hd hd')

/-- Values of kept definitions mention only used names. -/
theorem WellNamed.occIn {p : Program} (h : WellNamed p) {d : ValueDef} (hd : d ∈ p.defs) (hu : d.name ∈ dceUsed p) :
    OccIn (dceUsed p) d.value := fun x hx => (dceUsed_spec p).2.1 _ hu _ (h.get hd) x hx

/-- Removing unused definitions. -/
theorem lets_filter (hs : s.Lax) {used : List Name} : ∀ {ds : List ValueDef} {X : List Name},
    Good X (lets (defPairs ds) unit) → (∀ d ∈ ds, d.name ∈ used → OccIn used d.value) →
    Good (X.filter (· ∈ used)) (lets (defPairs (ds.filter fun d => d.name ∈ used)) unit) ∧
    (∀ y, cnt y (lets (defPairs (ds.filter fun d => d.name ∈ used)) unit) ≤ cnt y (lets (defPairs ds) unit)) ∧
    ∀ e, (∀ x, Free x e → x ∈ ds.map (·.name) ++ X) → (∀ x, Free x e → x ∈ used) →
      Le s X (lets (defPairs ds) e) (lets (defPairs (ds.filter fun d => d.name ∈ used)) e) ∧
      ∀ x, Free x (lets (defPairs (ds.filter fun d => d.name ∈ used)) e) → x ∈ X ∧ x ∈ used := by
  intro ds
  induction ds with
  | nil =>
    intro X h hu
    refine ⟨by simpa [defPairs, lets] using good_unit _, fun _ => Nat.le_refl _, fun e he hx => ⟨?_, fun x hf => ⟨?_, hx x hf⟩⟩⟩
    · simp only [List.filter_nil, defPairs, List.map_nil, lets]
      exact Le.refl (by simpa using he)
    · simpa using he x hf
  | cons d ds ih =>
    intro X h hu
    have h0 := h
    simp only [defPairs, List.map_cons, lets] at h
    obtain ⟨h1, h2, h3, h4, h5⟩ := good_let.1 h
    rw [← defPairs] at h2
    obtain ⟨g1, g2, g3⟩ := ih h2 fun d' hd' => hu d' (by simp [hd'])
    by_cases hd : d.name ∈ used
    · simp only [List.filter_cons, hd, decide_true, if_true] at g1 ⊢
      have hocc := hu d (by simp) hd
      refine ⟨?_, fun y => ?_, fun e he hx => ?_⟩
      · simp only [defPairs, List.map_cons, lets]
        refine good_let.2 ⟨⟨h1.uniq, fun y hy => h1.disj y (List.mem_filter.1 hy).1, fun x hx => ?_, h1.recs⟩, ?_, ?_, h4, fun y => ?_⟩
        · exact List.mem_filter.2 ⟨h1.scope x hx, by simpa using hocc x (.of_free hx)⟩
        · rw [← defPairs]; simpa [List.filter_cons, hd] using g1
        · intro hm; exact h3 (List.mem_filter.1 hm).1
        · have := h5 y; have := g2 y; simp only [defPairs] at *; omega
      · simp only [defPairs, List.map_cons, lets, cnt_let]
        have := g2 y; simp only [defPairs] at *; omega
      · obtain ⟨a1, a2⟩ := g3 e (fun x hf => by have := he x hf; simp at this ⊢; grind) hx
        simp only [defPairs, List.map_cons, lets]
        refine ⟨le_let (Le.refl h1.scope) (by simpa only [defPairs] using a1), fun x hf => ?_⟩
        rcases hf with hf | ⟨hne, hf⟩
        · exact ⟨h1.scope x hf, hocc x (.of_free hf)⟩
        · obtain ⟨b1, b2⟩ := a2 x (by simpa only [defPairs] using hf)
          exact ⟨(List.mem_cons.1 b1).resolve_left hne, b2⟩
    · simp only [List.filter_cons, hd, decide_false, Bool.false_eq_true, if_false] at g1 ⊢
      refine ⟨g1, fun y => ?_, fun e he hx => ?_⟩
      · simp only [defPairs, List.map_cons, lets, cnt_let]
        have := g2 y; simp only [defPairs] at *; omega
      · obtain ⟨a1, a2⟩ := g3 e (fun x hf => by have := he x hf; simp at this ⊢; grind) hx
        refine ⟨?_, fun x hf => ?_⟩
        · rw [defPairs, List.map_cons, lets, ← defPairs]
          refine Le.trans (le_let (Le.refl h1.scope) a1) (le_drop_let hs (fun hf => hd (a2 _ hf).2) fun x hf => (a2 x hf).1)
        · obtain ⟨b1, b2⟩ := a2 x hf
          exact ⟨(List.mem_cons.1 b1).resolve_left fun he => hd (he ▸ b2), b2⟩

end Tic.Core
