import Verif.ReduceLemmas
/-
Helper: the two reduction steps satisfy `StepOK` in both directions.
-/
namespace Tic.Core

variable {d : Bool} {s : Mode} {X : List Name}

theorem Good.of_le {e r : Expr} (h : Good X e) (hc : ∀ y, cnt y r ≤ cnt y e) (hs : ∀ x, Free x r → x ∈ X) (hr : WellShaped r) : Good X r :=
  ⟨fun y => Nat.le_trans (hc y) (h.uniq y), fun y hy => by have := hc y; have := h.disj y hy; omega, hs, hr⟩

theorem wellShaped_let {n : Name} {v e : Expr} : WellShaped (.let_ n v e) ↔ WellShaped v ∧ WellShaped e := by
  rw [wellShaped_iff]; simp [children, NodeOK]
theorem wellShaped_lam {ps : List (Name × Ty)} {e : Expr} : WellShaped (.lam ps e) ↔ WellShaped e := by
  rw [wellShaped_iff]; simp [children, NodeOK]
theorem wellShaped_pi {v : TyVar} {e : Expr} : WellShaped (.pi v e) ↔ WellShaped e := by
  rw [wellShaped_iff]; simp [children, NodeOK]
theorem wellShaped_piApp {t : Ty} {e : Expr} : WellShaped (.piApp e t) ↔ WellShaped e := by
  rw [wellShaped_iff]; simp [children, NodeOK]
theorem wellShaped_call {f : Expr} {xs : List Expr} : WellShaped (.call f xs) ↔ WellShaped f ∧ ∀ x ∈ xs, WellShaped x := by
  rw [wellShaped_iff]; simp [children, NodeOK]
theorem wellShaped_con {c : Name} {ts : List Ty} {xs : List Expr} : WellShaped (.con c ts xs) ↔ ∀ x ∈ xs, WellShaped x := by
  rw [wellShaped_iff]; simp [children, NodeOK]
theorem wellShaped_letrec {n : Name} {t : Ty} {v e : Expr} : WellShaped (.letrec n t v e) ↔ (recLam v).isSome = true ∧ WellShaped v ∧ WellShaped e := by
  rw [wellShaped_iff]; simp [children, NodeOK]
theorem wellShaped_mtch {e : Expr} {bs : List Branch} : WellShaped (.mtch e bs) ↔
    (bs.map Branch.ctor).Nodup ∧ WellShaped e ∧ ∀ b ∈ bs, WellShaped b.body := by
  rw [wellShaped_iff]; simp [children, NodeOK]

/-- Binders in a list of expressions. -/
def cntL (y : Name) (xs : List Expr) : Nat := (bindersL xs).count y
@[simp] theorem cntL_nil (y : Name) : cntL y [] = 0 := rfl
@[simp] theorem cntL_cons (y : Name) (x : Expr) (xs : List Expr) : cntL y (x :: xs) = cnt y x + cntL y xs := by
  simp [cntL, cnt, bindersL, List.count_append]
theorem cnt_call (y : Name) (f : Expr) (xs : List Expr) : cnt y (.call f xs) = cnt y f + cntL y xs := by
  simp [cntL, cnt, binders, List.count_append]
theorem cnt_con (y c : Name) (ts : List Ty) (xs : List Expr) : cnt y (.con c ts xs) = cntL y xs := by
  simp [cntL, cnt, binders]
theorem cnt_lam (y : Name) (ps : List (Name × Ty)) (b : Expr) : cnt y (.lam ps b) = (ps.map (·.1)).count y + cnt y b := by
  simp [cnt, binders, List.count_append]
theorem cnt_pi (y : Name) (v : TyVar) (b : Expr) : cnt y (.pi v b) = cnt y b := by simp [cnt, binders]
theorem cnt_piApp (y : Name) (v : Ty) (b : Expr) : cnt y (.piApp b v) = cnt y b := by simp [cnt, binders]
theorem cnt_letrec (y n : Name) (t : Ty) (v e : Expr) : cnt y (.letrec n t v e) = (if n = y then 1 else 0) + (cnt y v + cnt y e) := by
  rw [cnt_eq]; simp [own, children, List.count_cons, beq_iff_eq]

theorem cnt_bindLets (y : Name) (b : Expr) : ∀ {ns : List Name} {es : List Expr}, ns.length = es.length →
    cnt y (bindLets ns es b) = ns.count y + cntL y es + cnt y b
  | [], [], _ => by simp [bindLets]
  | n :: ns, e :: es, h => by
    rw [bindLets, cnt_let, cnt_bindLets y b (by simpa using h), cntL_cons, List.count_cons]
    simp only [beq_iff_eq]; omega

theorem free_bindLets {x : Name} {b : Expr} : ∀ {ns : List Name} {es : List Expr}, ns.length = es.length →
    Free x (bindLets ns es b) → FreeL x es ∨ (x ∉ ns ∧ Free x b)
  | [], [], _, h => .inr ⟨by simp, h⟩
  | n :: ns, e :: es, hl, h => by
    rw [bindLets, Free] at h
    rcases h with h | ⟨hn, h⟩
    · exact .inl (.inl h)
    · rcases free_bindLets (by simpa using hl) h with h | ⟨h1, h2⟩
      · exact .inl (.inr h)
      · exact .inr ⟨by simp [hn, h1], h2⟩

theorem wellShaped_bindLets {b : Expr} : ∀ {ns : List Name} {es : List Expr}, ns.length = es.length →
    (WellShaped (bindLets ns es b) ↔ (∀ e ∈ es, WellShaped e) ∧ WellShaped b)
  | [], [], _ => by simp [bindLets]
  | n :: ns, e :: es, hl => by
    rw [bindLets, wellShaped_let, wellShaped_bindLets (by simpa using hl)]; simp [and_assoc]

theorem free_call {x : Name} {f : Expr} {es : List Expr} : Free x (.call f es) ↔ Free x f ∨ FreeL x es := by rw [Free]
theorem free_let {x n : Name} {v e : Expr} : Free x (.let_ n v e) ↔ Free x v ∨ (x ≠ n ∧ Free x e) := by rw [Free]
theorem free_lam {x : Name} {ps : List (Name × Ty)} {b : Expr} : Free x (.lam ps b) ↔ x ∉ ps.map (·.1) ∧ Free x b := by rw [Free]

theorem mem_scope_lam {ps : List (Name × Ty)} {b : Expr} (h : ∀ x, Free x (.lam ps b) → x ∈ X) {y : Name} (hy : Free y b) :
    y ∈ ps.map (·.1) ++ X := by
  by_cases hp : y ∈ ps.map (·.1)
  · exact List.mem_append_left _ hp
  · exact List.mem_append_right _ (h y (free_lam.2 ⟨hp, hy⟩))

theorem mem_scope_let {n : Name} {v e : Expr} (h : ∀ x, Free x (.let_ n v e) → x ∈ X) {y : Name} (hy : Free y e) : y ∈ n :: X := by
  by_cases hp : y = n
  · simp [hp]
  · exact List.mem_cons_of_mem _ (h y (free_let.2 (.inr ⟨hp, hy⟩)))

/-- What a local step has to guarantee. -/
def Tri (d : Bool) (s : Mode) (X : List Name) (e e' : Expr) : Prop :=
  LeD d s X e e' ∧ Good X e' ∧ ∀ y, cnt y e' ≤ cnt y e

theorem Tri.refl {e : Expr} (h : Good X e) : Tri d s X e e := ⟨.refl h.scope, h, fun _ => Nat.le_refl _⟩

theorem tri_apply {args : List Expr} : ∀ (a : Expr) (X : List Name) {r : Expr}, Good X (.call a args) → apply args a = some r →
    Tri d s X (.call a args) r := by
  intro a
  induction a using Expr.strong with
  | _ a ih =>
    intro X r hg hr
    have hargs : ∀ e ∈ args, ∀ y, Free y e → y ∈ X := fun e he y hy =>
      hg.scope y (free_call.2 (.inr (FreeL_iff.2 ⟨e, he, hy⟩)))
    cases a <;> simp only [apply, reduceCtorEq] at hr
    case lam ps b =>
      split at hr
      · rename_i hl
        cases hr
        have hl' : (ps.map (·.1)).length = args.length := by simpa using hl
        have hb : ∀ y, Free y b → y ∈ ps.map (·.1) ++ X := fun y hy =>
          mem_scope_lam (fun x hx => hg.scope x (free_call.2 (.inl hx))) hy
        have hcnt : ∀ y, cnt y (.call (.lam ps b) args) = (ps.map (·.1)).count y + cnt y b + cntL y args := fun y => by
          rw [cnt_call, cnt_lam]
        have hc : ∀ y, cnt y (bindLets (ps.map (·.1)) args b) ≤ cnt y (.call (.lam ps b) args) := fun y => by
          rw [cnt_bindLets y b hl', hcnt]; omega
        refine ⟨leD_bindLets hl hargs ?_ ?_ hb, hg.of_le hc ?_ ?_, hc⟩
        · refine List.nodup_iff_count.2 fun y => ?_
          have := hg.uniq y; rw [hcnt] at this; omega
        · intro p hp hpx
          have := hg.disj p hpx; rw [hcnt] at this
          have : 0 < (ps.map (·.1)).count p := List.count_pos_iff.2 hp
          omega
        · intro x hx
          rcases free_bindLets hl' hx with h | h
          · exact hg.scope x (free_call.2 (.inr h))
          · exact hg.scope x (free_call.2 (.inl (free_lam.2 h)))
        · rw [wellShaped_bindLets hl']
          have := wellShaped_call.1 hg.recs
          exact ⟨this.2, wellShaped_lam.1 this.1⟩
      · cases hr
    case let_ n v e =>
      obtain ⟨r', hr', rfl⟩ := Option.map_eq_some_iff.1 hr
      have hlet : Good X (.let_ n v e) := by
        have := hg.child (c := ([], .let_ n v e)) (by simp [children])
        simpa using this
      obtain ⟨h1, h2, h3, h4, h5⟩ := good_let.1 hlet
      have hnot : n ∉ X := h3
      have hcnt : ∀ y, cnt y (.call (.let_ n v e) args) = (if n = y then 1 else 0) + (cnt y v + cnt y e) + cntL y args := fun y => by
        rw [cnt_call, cnt_let]
      have hgc : Good (n :: X) (.call e args) := by
        refine ⟨fun y => ?_, fun y hy => ?_, fun x hx => ?_, ?_⟩
        · have := hg.uniq y; rw [hcnt] at this; rw [cnt_call]; omega
        · rw [cnt_call]
          rcases List.mem_cons.1 hy with rfl | hy
          · have := hg.uniq y; rw [hcnt] at this; simp at this; omega
          · have := hg.disj y hy; rw [hcnt] at this; omega
        · rcases free_call.1 hx with h | h
          · exact h2.scope x h
          · exact List.mem_cons_of_mem _ (hg.scope x (free_call.2 (.inr h)))
        · have := wellShaped_call.1 hg.recs
          exact wellShaped_call.2 ⟨(wellShaped_let.1 this.1).2, this.2⟩
      obtain ⟨i1, i2, i3⟩ := ih e (by simp only [Expr.let_.sizeOf_spec]; omega) (n :: X) hgc hr'
      have hc : ∀ y, cnt y (.let_ n v r') ≤ cnt y (.call (.let_ n v e) args) := fun y => by
        have := i3 y; rw [cnt_call] at this; rw [hcnt, cnt_let]; omega
      refine ⟨LeD.trans (leD_call_let h1.scope h2.scope hargs h3) (leD_let (.refl h1.scope) i1), hg.of_le hc ?_ ?_, hc⟩
      · intro x hx
        rcases free_let.1 hx with h | ⟨hn, h⟩
        · exact h1.scope x h
        · rcases List.mem_cons.1 (i2.scope x h) with h | h
          · exact absurd h hn
          · exact h
      · exact wellShaped_let.2 ⟨h1.recs, i2.recs⟩

theorem stepOK_reduceApply : StepOK d s reduceApplyStep := by
  refine ⟨fun X e hg => ?_, fun ps b => ⟨ps, rfl, rfl⟩, fun v e => rfl⟩
  cases e
  case call a args =>
    simp only [reduceApplyStep]
    split
    · cases hr : apply args a with
      | none => exact Tri.refl hg
      | some r => exact tri_apply a X hg hr
    · exact Tri.refl hg
  all_goals exact Tri.refl hg

/-! ### `reduce_pi` -/

theorem stepOK_replNode (var : TyVar) (wth : Ty) : StepOK d s (replNode var wth) := by
  refine ⟨fun X e hg => ?_, fun ps b => ⟨ps.map fun p => (p.1, replTy var wth p.2), rfl, by simp [Function.comp_def]⟩, fun v e => rfl⟩
  cases e
  case lam ps b =>
    have hp : (ps.map fun p => (p.1, replTy var wth p.2)).map (·.1) = ps.map (·.1) := by simp [Function.comp_def]
    refine ⟨?_, hg.of_le (fun y => by simp only [replNode]; rw [cnt_lam, cnt_lam, hp]; exact Nat.le_refl _) (fun x hx => ?_) ?_, fun y => by simp only [replNode]; rw [cnt_lam, cnt_lam, hp]; exact Nat.le_refl _⟩
    · have h1 : Le s (ps.map (·.1) ++ X) b b := Le.refl fun y hy => mem_scope_lam hg.scope hy
      cases d
      · exact le_lam hp (hp ▸ h1)
      · exact le_lam hp.symm h1
    · simp only [replNode] at hx
      rw [free_lam, hp, ← free_lam] at hx
      exact hg.scope x hx
    · exact wellShaped_lam.2 (wellShaped_lam.1 hg.recs)
  case letrec n t v e =>
    refine ⟨?_, hg.of_le (fun y => by simp only [replNode]; rw [cnt_letrec, cnt_letrec]; exact Nat.le_refl _) (fun x hx => hg.scope x (by simpa [replNode, Free] using hx)) ?_,
      fun y => by simp only [replNode]; rw [cnt_letrec, cnt_letrec]; exact Nat.le_refl _⟩
    · obtain ⟨⟨ps, c⟩, h2⟩ := Option.isSome_iff_exists.1 (hg.recSome rfl)
      have hv : ∀ y, Free y v → y ∈ n :: X := fun y hy => (hg.child (c := ([n], v)) (by simp [children])).scope y hy
      have hR : RecOK s (n :: X) v v := by
        refine .inr ⟨ps, c, c, h2, h2, Le.refl fun y hy => ?_⟩
        by_cases hp : y ∈ ps
        · exact List.mem_append_left _ hp
        · exact List.mem_append_right _ (hv y ((recLam_free h2).2 ⟨hp, hy⟩))
      have he : Le s (n :: X) e e := Le.refl (hg.child (c := ([n], e)) (by simp [children])).scope
      cases d <;> exact le_letrec hR he
    · exact wellShaped_letrec.2 (wellShaped_letrec.1 hg.recs)
  case piApp e t =>
    refine ⟨?_, hg.of_le (fun y => by simp only [replNode]; rw [cnt_piApp, cnt_piApp]; exact Nat.le_refl _) (fun x hx => hg.scope x (by simpa [replNode, Free] using hx)) ?_,
      fun y => by simp only [replNode]; rw [cnt_piApp, cnt_piApp]; exact Nat.le_refl _⟩
    · have he : Le s X e e := Le.refl fun y hy => hg.scope y (by simpa [Free] using hy)
      cases d <;> exact fun k ρ ρ' hρ => rel_piApp (he k ρ ρ' hρ)
    · exact wellShaped_piApp.2 (wellShaped_piApp.1 hg.recs)
  case trap m t =>
    refine ⟨?_, hg.of_le (fun y => Nat.le_refl _) (fun x hx => hg.scope x (by simpa [replNode, Free] using hx)) ?_, fun y => Nat.le_refl _⟩
    · cases d <;> exact fun k ρ ρ' hρ => rel_trap _ _ _
    · simp only [replNode]; rw [wellShaped_iff]; simp [children, NodeOK]
  case con c ts xs =>
    refine ⟨?_, hg.of_le (fun y => by simp only [replNode]; rw [cnt_con, cnt_con]; exact Nat.le_refl _) (fun x hx => hg.scope x (by simpa [replNode, Free] using hx)) ?_,
      fun y => by simp only [replNode]; rw [cnt_con, cnt_con]; exact Nat.le_refl _⟩
    · have hx : ∀ e ∈ xs, ∀ y, Free y e → y ∈ X := fun e he y hy => hg.scope y (by rw [Free]; exact FreeL_iff.2 ⟨e, he, hy⟩)
      cases d <;> exact fun k ρ ρ' hρ => rel_con (all2_fund fun e he y hy => hρ y (hx e he y hy))
    · exact wellShaped_con.2 (wellShaped_con.1 hg.recs)
  all_goals exact Tri.refl hg

theorem leD_pi {v : TyVar} {e e' : Expr} (h : LeD d s X e e') : LeD d s X (.pi v e) e' := by
  cases d
  · exact fun k ρ ρ' hρ => rel_pi_right (h k ρ ρ' hρ)
  · exact fun k ρ ρ' hρ => rel_pi_left (h k ρ ρ' hρ)
theorem leD_piApp {t : Ty} {e e' : Expr} (h : LeD d s X e e') : LeD d s X (.piApp e t) e' := by
  cases d
  · exact fun k ρ ρ' hρ => rel_piApp_right (h k ρ ρ' hρ)
  · exact fun k ρ ρ' hρ => rel_piApp_left (h k ρ ρ' hρ)

theorem tri_let {n : Name} {v e e' : Expr} (hg : Good X (.let_ n v e)) (h : Tri d s (n :: X) e e') :
    Tri d s X (.let_ n v e) (.let_ n v e') := by
  obtain ⟨h1, h2, h3, h4, h5⟩ := good_let.1 hg
  have hc : ∀ y, cnt y (.let_ n v e') ≤ cnt y (.let_ n v e) := fun y => by
    have := h.2.2 y; rw [cnt_let, cnt_let]; omega
  refine ⟨leD_let (.refl h1.scope) h.1, hg.of_le hc ?_ (wellShaped_let.2 ⟨h1.recs, h.2.1.recs⟩), hc⟩
  intro x hx
  rcases free_let.1 hx with hx | ⟨hn, hx⟩
  · exact h1.scope x hx
  · rcases List.mem_cons.1 (h.2.1.scope x hx) with h | h
    · exact absurd h hn
    · exact h

theorem tri_applyPi {arg : Ty} : ∀ (a : Expr) (X : List Name), Good X a → canApplyPi a = true → Tri d s X a (applyPi arg a) := by
  intro a
  induction a using Expr.strong with
  | _ a ih =>
    intro X hg ha
    cases a <;> simp only [canApplyPi, reduceCtorEq, Bool.false_eq_true] at ha
    case pi v e =>
      have hge : Good X e := by simpa using hg.child (c := ([], e)) (by simp [children])
      have := (stepOK_replNode (d := d) (s := s) v arg).walkPost hge
      exact ⟨leD_pi this.le, this.good, fun y => by rw [cnt_pi]; exact this.cnt y⟩
    case let_ n v e =>
      exact tri_let hg (ih e (by simp only [Expr.let_.sizeOf_spec]; omega) (n :: X) (good_let.1 hg).2.1 ha)

theorem stepOK_reducePi : StepOK d s reducePiStep := by
  refine ⟨fun X e hg => ?_, fun ps b => ⟨ps, rfl, rfl⟩, fun v e => rfl⟩
  cases e
  case piApp a t =>
    simp only [reducePiStep]
    split
    · rename_i ha
      have hga : Good X a := by simpa using hg.child (c := ([], a)) (by simp [children])
      obtain ⟨h1, h2, h3⟩ := tri_applyPi (d := d) (s := s) (arg := t) a X hga ha
      exact ⟨leD_piApp h1, h2, fun y => by rw [cnt_piApp]; exact h3 y⟩
    · exact Tri.refl hg
  all_goals exact Tri.refl hg

end Tic.Core
