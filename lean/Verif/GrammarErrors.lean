/-
Every recorded error is seen when the tree is built, and the first one seen is reported.
-/
import Verif.GrammarBackItem

namespace Tic.Grammar

open Tic.Parser

theorem chain_err {a b : Nat} {j : Nat} : ∀ n (es : List Event) i, es[j]? = some (.error a b) → j ∉ (chain n es i).1 ∧ (chain n es i).2[j]? = some (.error a b)
  | 0, es, i, h => by simp [chain, h]
  | n + 1, es, i, h => by
    unfold chain
    split
    · rename_i k i' hi
      have hne : i ≠ j := by rintro rfl; rw [hi] at h; simp at h
      obtain ⟨h1, h2⟩ := chain_err n (es.set i (.startNode k none)) i' (by rw [List.getElem?_set_ne hne]; exact h)
      exact ⟨by simp only [List.mem_cons, not_or]; exact ⟨fun e => hne e.symm, h1⟩, h2⟩
    · rename_i k hi
      have hne : i ≠ j := by rintro rfl; rw [hi] at h; simp at h
      exact ⟨by simp only [List.mem_singleton]; exact fun e => hne e.symm, h⟩
    · exact ⟨by simp, h⟩

theorem takeOut_err {a b : Nat} {j : Nat} : ∀ (is : List Nat) (es : List Event), es[j]? = some (.error a b) → j ∉ is → (takeOut es is).2[j]? = some (.error a b)
  | [], _, h, _ => h
  | i :: is, es, h, hj => by
    simp only [List.mem_cons, not_or] at hj
    unfold takeOut
    exact takeOut_err is _ (by rw [List.getElem?_set_ne (fun e => hj.1 e.symm)]; exact h) hj.2

theorem reorderStep_err {a b : Nat} {es out : List Event} {i j : Nat} (h : es[j]? = some (.error a b)) :
    (i ≠ j → (reorderStep es out i).1[j]? = some (.error a b)) ∧ (i = j → Event.error a b ∈ (reorderStep es out i).2) ∧ ∀ e ∈ out, e ∈ (reorderStep es out i).2 := by
  unfold reorderStep
  split
  · rename_i k i' hi
    obtain ⟨h1, h2⟩ := chain_err (es.length + 1) es i h
    refine ⟨fun _ => takeOut_err _ _ h2 (by simpa using h1), ?_, fun e he => by simp [he]⟩
    rintro rfl; rw [hi] at h; simp at h
  · rename_i hi
    refine ⟨fun _ => h, ?_, fun _ he => he⟩
    rintro rfl; rw [hi] at h; simp at h
  · rename_i e _ _ hi
    refine ⟨fun hne => by rw [List.getElem?_set_ne hne]; exact h, ?_, fun e he => by simp [he]⟩
    rintro rfl
    rw [h] at hi
    simp [← Option.some.inj hi]
  · rename_i hi
    refine ⟨fun _ => h, ?_, fun _ he => he⟩
    rintro rfl; rw [hi] at h; simp at h

theorem reorderLoop_err {a b : Nat} {j : Nat} : ∀ (is : List Nat) (es out : List Event), (es[j]? = some (.error a b) ∧ j ∈ is ∨ Event.error a b ∈ out) → Event.error a b ∈ (reorderLoop es out is).2
  | [], es, out, h => by simpa [reorderLoop] using h
  | i :: is, es, out, h => by
    have ih := reorderLoop_err (a := a) (b := b) (j := j) is (reorderStep es out i).1 (reorderStep es out i).2
    show _ ∈ (reorderLoop (reorderStep es out i).1 (reorderStep es out i).2 is).2
    refine ih ?_
    rcases h with ⟨h1, h2⟩ | h
    · obtain ⟨g1, g2, g3⟩ := reorderStep_err (out := out) (i := i) h1
      by_cases e : i = j
      · exact .inr (g2 e)
      · refine .inl ⟨g1 e, ?_⟩
        simp only [List.mem_cons] at h2
        exact h2.resolve_left fun h => e h.symm
    · refine .inr ?_
      unfold reorderStep
      split
      · simp [h]
      · exact h
      · simp [h]
      · exact h

theorem reorder_err {es out : List Event} {i : Nat} {a b} (h : reorder es = some out) (hi : es[i]? = some (.error a b)) : Event.error a b ∈ out := by
  unfold reorder at h
  simp only [Option.ite_none_right_eq_some, Option.some.injEq] at h
  rw [← h.2]
  exact reorderLoop_err (j := i) _ _ _ (.inl ⟨hi, by simpa using (List.getElem?_eq_some_iff.mp hi).1⟩)

theorem nodeStep_since {s s' : NodeState} {e} (h : nodeStep s e = some s') (hne : ∀ a b, e ≠ .error a b) : s.sinceError ≤ s'.sinceError ∧ s'.errors = s.errors := by
  cases e with
  | error a b => exact absurd rfl (hne a b)
  | placeholder => cases h
  | startNode k p => simp only [nodeStep, Option.some.injEq] at h; rw [← h]; exact ⟨Nat.le_refl _, rfl⟩
  | finishNode =>
    simp only [nodeStep, Option.map_eq_some_iff] at h
    obtain ⟨b, -, h⟩ := h
    rw [← h]; exact ⟨Nat.le_refl _, rfl⟩
  | addToken k =>
    simp only [nodeStep, Option.bind_eq_some_iff] at h
    obtain ⟨b, -, h⟩ := h
    split at h
    · split at h
      · simp only [Option.bind_eq_some_iff, Option.map_eq_some_iff] at h
        obtain ⟨b2, -, b3, -, h⟩ := h
        rw [← h]; exact ⟨Nat.le_succ _, rfl⟩
      · cases h
    · cases h

theorem nodeSteps_mono : ∀ (es : List Event) (s s' : NodeState), nodeSteps es s = some s' → s.errors ≠ [] → s'.errors ≠ []
  | [], s, s', h, hne => by simp only [nodeSteps, Option.some.injEq] at h; rw [← h]; exact hne
  | e :: es, s, s', h, hne => by
    simp only [nodeSteps, Option.bind_eq_some_iff] at h
    obtain ⟨s1, h1, h2⟩ := h
    refine nodeSteps_mono es s1 s' h2 ?_
    cases e with
    | error a b =>
      simp only [nodeStep, Option.some.injEq] at h1
      rw [← h1]
      simp only
      split
      · simp
      · exact hne
    | _ => rw [(nodeStep_since h1 (by simp)).2]; exact hne

/-- The first error is not dropped. -/
theorem nodeSteps_err {a b} : ∀ (es : List Event) (s s' : NodeState), nodeSteps es s = some s' → 2 ≤ s.sinceError → Event.error a b ∈ es → s'.errors ≠ []
  | e :: es, s, s', h, hs, hm => by
    simp only [nodeSteps, Option.bind_eq_some_iff] at h
    obtain ⟨s1, h1, h2⟩ := h
    by_cases he : ∃ a b, e = .error a b
    · obtain ⟨a', b', rfl⟩ := he
      refine nodeSteps_mono es s1 s' h2 ?_
      simp only [nodeStep, Option.some.injEq] at h1
      rw [← h1]
      simp [hs]
    · have hne : ∀ a b, e ≠ .error a b := fun a b h => he ⟨a, b, h⟩
      refine nodeSteps_err (a := a) (b := b) es s1 s' h2 (Nat.le_trans hs (nodeStep_since h1 hne).1) ?_
      simp only [List.mem_cons] at hm
      exact hm.resolve_left fun h => hne a b h.symm

theorem eventsToNode_err {es : List Event} {start toks eatAll root errs a b} (h : eventsToNode es start toks eatAll = some (root, errs)) (he : Event.error a b ∈ es) : errs ≠ [] := by
  unfold eventsToNode at h
  simp only [Option.bind_eq_some_iff, Option.map_eq_some_iff] at h
  obtain ⟨s, h1, b, h2, r, h3, h4⟩ := h
  simp only [Prod.mk.injEq] at h4
  rw [← h4.2]
  exact nodeSteps_err es _ s h1 (Nat.le_refl _) he

end Tic.Grammar
