import Verif.MoveMatch
import Verif.PropMerge
/-
C31: moving definitions under the lambdas of recursive functions keeps values.
-/
namespace Tic.Core

variable {s : Mode} {X : List Name}

/-- A definition whose value is known on the right. -/
theorem rel_let_right {k : Nat} {ρ1 ρ2 : Env} {x : Name} {e v b : Expr} {w : Val} {m0 : Nat} (hv : eval m0 ρ2 v = .ok w)
    (h : RelD s k ρ1 e ((x, w) :: ρ2) b) : RelD s k ρ1 e ρ2 (.let_ x v b) := by
  refine h.congr_right fun m => ⟨max m m0 + 1, ?_⟩
  rw [eval_let, eval_mono_ok (Nat.le_max_right _ _) hv, Res.bind_ok]
  rcases eval_le (Nat.le_max_left m m0) ((x, w) :: ρ2) b with h | h
  · exact .inl h
  · exact .inr h.symm

theorem le_let_lam (hs : s.Lax) {x : Name} {v b : Expr} {ps : List (Name × Ty)} (h : Good X (.let_ x v (.lam ps b))) :
    Le s X (.let_ x v (.lam ps b)) (.lam ps (.let_ x v b)) := by
  obtain ⟨h1, h2, h3, h4, h5⟩ := good_let.1 h
  have hd := h2.disj
  have hps : ∀ y ∈ ps.map (·.1), y ≠ x ∧ y ∉ X := by
    intro y hy
    have h0 : 0 < (ps.map (·.1)).count y := List.count_pos_iff.2 hy
    refine ⟨fun he => ?_, fun he => ?_⟩
    · have := hd y (by simp [he]); rw [cnt_lam] at this; omega
    · have := hd y (by simp [he]); rw [cnt_lam] at this; omega
  intro k ρ ρ' hρ j hj n
  cases n with
  | zero => exact CE.timeout
  | succ n =>
    simp only [evalC]
    refine ce_skip hs fun w hw hl => ?_
    refine rel_lam (ρ := (x, w) :: ρ) (ρ' := ρ') (k := j - (evalC n ρ v).1) rfl (fun i hi vs vs' hvs hlen => ?_) _ (Nat.le_refl _) n
    have hlen' : (ps.map (·.1)).length = vs.length := by simpa using hlen
    have hb := fund v (k := k) (ρ := ρ) (ρ' := bindAll ρ' (ps.map (·.1)) vs') (fun y hy => by
      have hyX := h1.scope y hy
      exact (hρ y hyX).congr rfl (lookup_bindAll_notMem fun hm => (hps y hm).2 hyX)) j hj n hl (by rw [hw]; simp)
    rw [hw] at hb
    obtain ⟨m, w', hw', hww⟩ := hb
    refine rel_let_right hw' (fund b fun y hy => ?_)
    have hxp : x ∉ ps.map (·.1) := fun hm => (hps x hm).1 rfl
    by_cases hyx : y = x
    · subst hyx
      exact .inr ⟨w, w', by rw [lookup_bindAll_notMem hxp, lookup, if_pos rfl], by rw [lookup, if_pos rfl], hww.mono (by omega)⟩
    · have hl : LookRel s i (bindAll ((x, w) :: ρ) (ps.map (·.1)) vs) (bindAll ρ' (ps.map (·.1)) vs') y := by
        refine LookRel.bindAll hvs hlen' fun hn => ?_
        have : y ∈ x :: X := h2.scope y (free_lam.2 ⟨hn, hy⟩)
        have hyX := (List.mem_cons.1 this).resolve_left hyx
        exact ((hρ y hyX).mono (by omega)).congr (by rw [lookup, if_neg (Ne.symm hyx)]) rfl
      exact hl.congr rfl (by rw [lookup, if_neg (Ne.symm hyx)])

theorem cnt_moveIn (f : Name) (e : Expr) : ∀ y, cnt y (moveIn f e) = cnt y e := by
  induction e using Expr.childInd with
  | _ e ih =>
    intro y
    unfold moveIn
    split
    · rename_i ps b
      rw [cnt_lam, cnt_lam, ih (ps.map (·.1), b) (by simp [children]) y]
    · split
      · simp only [cnt_let, cnt_lam]; omega
      · rfl
    · rfl

theorem moveIn_ok (hs : s.Lax) (f : Name) (e : Expr) : ∀ X, Good X e → Le s X e (moveIn f e) ∧ (∀ x, Free x (moveIn f e) → x ∈ X) ∧ WellShaped (moveIn f e) := by
  induction e using Expr.childInd with
  | _ e ih =>
    intro X hg
    unfold moveIn
    split
    · rename_i ps b
      have hc := hg.child (c := (ps.map (·.1), b)) (by simp [children])
      obtain ⟨i1, i2, i3⟩ := ih (ps.map (·.1), b) (by simp [children]) _ hc
      refine ⟨le_lam rfl i1, fun x hx => ?_, wellShaped_lam.2 i3⟩
      obtain ⟨h1, h2⟩ := free_lam.1 hx
      exact (List.mem_append.1 (i2 x h2)).resolve_left h1
    · rename_i x v ps b
      split
      · refine ⟨le_let_lam hs hg, fun y hy => ?_, ?_⟩
        · obtain ⟨h1, h2⟩ := free_lam.1 hy
          rcases free_let.1 h2 with h | ⟨h3, h4⟩
          · exact hg.scope y (free_let.2 (.inl h))
          · exact hg.scope y (free_let.2 (.inr ⟨h3, free_lam.2 ⟨h1, h4⟩⟩))
        · have := wellShaped_let.1 hg.recs
          exact wellShaped_lam.2 (wellShaped_let.2 ⟨this.1, wellShaped_lam.1 this.2⟩)
      · exact ⟨.refl hg.scope, hg.scope, hg.recs⟩
    · exact ⟨.refl hg.scope, hg.scope, hg.recs⟩

theorem stepOK_move (hs : s.Lax) : StepOK true s (fun e => (moveStep e).getD e) := by
  refine ⟨fun X e hg => ?_, fun ps b => ⟨ps, rfl, rfl⟩, fun v e => rfl⟩
  unfold moveStep
  split
  · rename_i f t ps b e
    simp only [Option.getD_some]
    have hgv : Good (f :: X) (.lam ps b) := hg.child (c := ([f], .lam ps b)) (by simp [children])
    have hge : Good (f :: X) e := hg.child (c := ([f], e)) (by simp [children])
    have hgb : Good (ps.map (·.1) ++ f :: X) b := hgv.child (c := (ps.map (·.1), b)) (by simp [children])
    obtain ⟨i1, i2, i3⟩ := moveIn_ok hs f b _ hgb
    have hc : ∀ y, cnt y (.letrec f t (.lam ps (moveIn f b)) e) ≤ cnt y (.letrec f t (.lam ps b) e) := fun y => by
      simp only [cnt_letrec, cnt_lam, cnt_moveIn]; exact Nat.le_refl _
    refine ⟨le_letrec (.inr ⟨_, b, _, recLam_lam _ _, recLam_lam _ _, i1⟩) (.refl hge.scope), hg.of_le hc (fun x hx => ?_) ?_, hc⟩
    · rcases free_letrec.1 hx with ⟨h1, h2⟩ | ⟨h1, h2⟩
      · obtain ⟨h3, h4⟩ := free_lam.1 h2
        exact (List.mem_cons.1 ((List.mem_append.1 (i2 x h4)).resolve_left h3)).resolve_left h1
      · exact (List.mem_cons.1 (hge.scope x h2)).resolve_left h1
    · exact wellShaped_letrec.2 ⟨by rw [recLam_lam]; rfl, wellShaped_lam.2 i3, hge.recs⟩
  · exact Tri.refl hg
  · exact Tri.refl hg

theorem esize_moveIn (f : Name) (e : Expr) : esize (moveIn f e) = esize e := by
  induction e using Expr.childInd with
  | _ e ih =>
    unfold moveIn
    split
    · rename_i ps b
      simp only [esize, ih (ps.map (·.1), b) (by simp [children])]
    · split
      · simp only [esize]; omega
      · rfl
    · rfl

theorem esize_moveStep (e e' : Expr) (h : moveStep e = some e') : esize e' ≤ esize e := by
  unfold moveStep at h
  split at h
  · cases h; simp only [esize, esize_moveIn]; exact Nat.le_refl _
  · cases h
  · cases h; exact Nat.le_refl _

/-- The bound on the walk in the model is never reached: it satisfies the recursive equation of
`walk_expressions_mut`. -/
theorem walkPre_moveMatch_eq (e : Expr) :
    walkPreO (esize e) moveStep e = (moveStep e).bind (mapSubO fun c => walkPreO (esize c) moveStep c) :=
  walkPreO_eqn (fun _ _ h => mem_children_esize h) esize_pos esize_moveStep e

/-- C31.  If the pass does not panic, the new program is well named and every value the program
gives is kept. -/
theorem move_match_preserves {p p' : Program} (hp : WellNamed p) (h : moveMatch p = some p') :
    WellNamed p' ∧ ∀ es, Asks p es → KeepsValues p p' es := by
  have he : p' = mapDefs (fun e => walkPreN (esize e) (fun e => (moveStep e).getD e) e) p := mapDefsO_eq (fun e e' hee => walkPreO_eq hee) h
  have h1 := mapDefs_ok (s := lax) (g := fun e => walkPreN (esize e) (fun e => (moveStep e).getD e) e)
    (fun X e hg => (stepOK_move lax_lax).walkPreN _ X e hg) hp
  rw [← he] at h1
  exact ⟨h1.1, fun es hes => keepsValues_of (h1.2 es hes).yields.1⟩

/-- Every recursive definition inside `e` is directly a lambda. -/
def RecLams (e : Expr) : Prop := ∀ f t v r, SubE (.letrec f t v r) e → ∃ ps b, v = .lam ps b

theorem RecLams.child {e : Expr} (h : RecLams e) {c : List Name × Expr} (hc : c ∈ children e) : RecLams c.2 :=
  fun f t v r hs => h f t v r (.step hc hs)

theorem recLams_iff {e : Expr} : RecLams e ↔ (∀ f t v r, e = .letrec f t v r → ∃ ps b, v = .lam ps b) ∧ ∀ c ∈ children e, RecLams c.2 := by
  constructor
  · exact fun h => ⟨fun f t v r he => h f t v r (he ▸ .refl), fun c hc => h.child hc⟩
  · rintro ⟨h1, h2⟩ f t v r hs
    rcases SubE.cases_iff.1 hs with h | ⟨c, hc, h⟩
    · exact h1 f t v r h.symm
    · exact h2 c hc f t v r h

theorem recLams_moveIn (f : Name) (e : Expr) : RecLams e → RecLams (moveIn f e) := by
  induction e using Expr.childInd with
  | _ e ih =>
    intro h
    unfold moveIn
    split
    · rename_i ps b
      rw [recLams_iff] at h ⊢
      simp [children] at h ⊢
      exact ih (ps.map (·.1), b) (by simp [children]) h
    · split
      · rename_i x v ps b _
        have h' := recLams_iff.1 h
        simp [children] at h'
        have h2 := recLams_iff.1 h'.2
        simp [children] at h2
        rw [recLams_iff]
        simp [children]
        rw [recLams_iff]
        simpa [children] using ⟨h'.1, h2⟩
      · exact h
    · exact h

theorem allO_some {α β : Type} {g : α → Option β} : ∀ {as : List α}, (∀ a ∈ as, (g a).isSome = true) → (allO g as).isSome = true
  | [], _ => rfl
  | a :: as, h => by
    obtain ⟨b, hb⟩ := Option.isSome_iff_exists.1 (h a (by simp))
    obtain ⟨bs, hbs⟩ := Option.isSome_iff_exists.1 (allO_some (g := g) (as := as) fun a ha => h a (by simp [ha]))
    simp [allO, hb, hbs]

theorem mapSubO_some {g : Expr → Option Expr} {e : Expr} (h : ∀ c ∈ children e, (g c.2).isSome = true) : (mapSubO g e).isSome = true := by
  have hL : ∀ xs : List Expr, (∀ c ∈ xs.map (fun x => (([] : List Name), x)), (g c.2).isSome = true) → ∃ ys, allO g xs = some ys :=
    fun xs hx => Option.isSome_iff_exists.1 (allO_some fun x hm => hx ([], x) (List.mem_map.2 ⟨x, hm, rfl⟩))
  cases e <;> simp only [children, List.mem_cons, List.not_mem_nil, or_false, forall_eq_or_imp, forall_eq] at h <;> simp only [mapSubO, Option.isSome_some]
  case call f xs =>
    obtain ⟨a, ha⟩ := Option.isSome_iff_exists.1 h.1
    obtain ⟨ys, hy⟩ := hL xs h.2
    simp [ha, hy]
  case ite =>
    obtain ⟨a, ha⟩ := Option.isSome_iff_exists.1 h.1
    obtain ⟨b, hb⟩ := Option.isSome_iff_exists.1 h.2.1
    obtain ⟨c, hc⟩ := Option.isSome_iff_exists.1 h.2.2
    simp [ha, hb, hc]
  case op =>
    obtain ⟨a, ha⟩ := Option.isSome_iff_exists.1 h.1
    obtain ⟨b, hb⟩ := Option.isSome_iff_exists.1 h.2
    simp [ha, hb]
  case intr i xs => obtain ⟨ys, hy⟩ := hL xs h; simp [hy]
  case lam => obtain ⟨a, ha⟩ := Option.isSome_iff_exists.1 h; simp [ha]
  case mtch e bs =>
    obtain ⟨a, ha⟩ := Option.isSome_iff_exists.1 h.1
    obtain ⟨ys, hy⟩ := Option.isSome_iff_exists.1 (allO_some (g := fun b : Branch => (g b.body).map fun e => Branch.mk b.ctor b.binds e) (as := bs) fun b hb => by
      simpa using h.2 (b.binds, b.body) (List.mem_map.2 ⟨b, hb, rfl⟩))
    simp [ha, hy]
  case con c ts xs => obtain ⟨ys, hy⟩ := hL xs h; simp [hy]
  case let_ =>
    obtain ⟨a, ha⟩ := Option.isSome_iff_exists.1 h.1
    obtain ⟨b, hb⟩ := Option.isSome_iff_exists.1 h.2
    simp [ha, hb]
  case letrec =>
    obtain ⟨a, ha⟩ := Option.isSome_iff_exists.1 h.1
    obtain ⟨b, hb⟩ := Option.isSome_iff_exists.1 h.2
    simp [ha, hb]
  case pi => obtain ⟨a, ha⟩ := Option.isSome_iff_exists.1 h; simp [ha]
  case piApp => obtain ⟨a, ha⟩ := Option.isSome_iff_exists.1 h; simp [ha]

theorem walk_move_some : ∀ (n : Nat) (e : Expr), RecLams e → (walkPreO n moveStep e).isSome = true := by
  intro n
  induction n with
  | zero => intro e _; rfl
  | succ n ih =>
    intro e h
    have hstep : ∃ e', moveStep e = some e' ∧ RecLams e' := by
      by_cases hl : ∃ f t v r, e = .letrec f t v r
      · obtain ⟨f, t, v, r, rfl⟩ := hl
        obtain ⟨ps, b, rfl⟩ := h f t v r .refl
        refine ⟨_, rfl, ?_⟩
        have h' := recLams_iff.1 h
        simp [children] at h'
        have h2 := recLams_iff.1 h'.2.1
        simp [children] at h2
        rw [recLams_iff]
        simp [children]
        refine ⟨fun _ _ v _ _ _ hv _ => ⟨_, _, hv.symm⟩, ?_, h'.2.2⟩
        rw [recLams_iff]
        simpa [children] using recLams_moveIn f b h2
      · refine ⟨e, ?_, h⟩
        cases e <;> first | rfl | exact absurd ⟨_, _, _, _, rfl⟩ hl
    obtain ⟨e', he', hr⟩ := hstep
    rw [walkPreO, he', Option.bind_some]
    exact mapSubO_some fun c hc => ih c.2 (hr.child hc)

/-- C31.  The pass does not panic on programs whose recursive definitions are directly lambdas, as
the code generator makes them. -/
theorem move_match_no_panic {p : Program} (h : ∀ d ∈ p.defs, RecLams d.value) : ∃ p', moveMatch p = some p' := by
  have : (allO (fun d : ValueDef => (walkPreO (esize d.value) moveStep d.value).map fun v => { d with value := v }) p.defs).isSome = true := by
    refine allO_some fun d hd => ?_
    have := walk_move_some (esize d.value) d.value (h d hd)
    simpa using this
  obtain ⟨ds, hds⟩ := Option.isSome_iff_exists.1 this
  exact ⟨{ p with defs := ds }, by simp only [moveMatch, mapDefsO, hds, Option.map_some]⟩

/-! ### A concrete program -/

/-- `f = letrec g = \x. let y = g; \z. z + x; g(1)`. -/
def exMove : Program where
  types := []
  defs := [⟨0, some "f", .fn [.int] .int,
    .letrec 1 .int (.lam [(2, .int)] (.let_ 3 (.name 1) (.lam [(4, .int)] (.op (.name 4) .add (.name 2))))) (.call (.name 1) [.int 1])⟩]

example : WellNamed exMove := wnB_ok (by decide)
example : (moveMatch exMove).map (fun p => p.defs.map (·.value)) = some [
    .letrec 1 .int (.lam [(2, .int)] (.lam [(4, .int)] (.let_ 3 (.name 1) (.op (.name 4) .add (.name 2))))) (.call (.name 1) [.int 1])] := by rfl
example : Asks exMove [.call (.name 0) [.int 5]] := by
  intro e he x hx
  simp only [List.mem_cons, List.not_mem_nil, or_false] at he
  subst he; simp [Free, FreeL] at hx; subst hx; simp [exMove]
example : Yields exMove [.call (.name 0) [.int 5]] [.int 6] := ⟨20, [.int 6], by rfl, rfl⟩
example : ∀ d ∈ exMove.defs, RecLams d.value := by
  intro d hd
  simp only [exMove, List.mem_cons, List.not_mem_nil, or_false] at hd
  subst hd
  rw [recLams_iff]
  refine ⟨fun _ _ v _ h => by cases h; exact ⟨_, _, rfl⟩, ?_⟩
  simp only [children, List.mem_cons, List.not_mem_nil, or_false, forall_eq_or_imp, forall_eq]
  constructor <;> repeat (first | (rw [recLams_iff]; simp [children]) | constructor)

end Tic.Core
