import Verif.CompleteProof

/-!
# Completions: items, scopes and the list of names
-/

namespace Tic.Resolve

/-! ## Items -/

theorem free_specFields {p : Nat} (x : String) (env : Env) : ∀ fs, p ∉ nodesOf (sitesFields fs) →
    specFields env (fs.map (renField p x)) = specFields env fs ∧ NoRef p (specFields env fs).2
  | [], _ => ⟨rfl, .nil p⟩
  | .recur :: fs, h => by
    obtain ⟨b1, b2⟩ := free_specFields x env fs h
    simp only [List.map_cons, renField, specFields, b1]
    exact ⟨trivial, b2⟩
  | .type t :: fs, h => by
    rw [sitesFields, not_mem_append'] at h
    obtain ⟨a1, a2⟩ := free_specTy x env t h.1
    obtain ⟨b1, b2⟩ := free_specFields x env fs h.2
    simp only [List.map_cons, renField, specFields, a1, b1]
    exact ⟨trivial, a2.append b2⟩

theorem fit_fields {me : Nat} {scope : Scope} {env : Env} (h : Agree me scope env) :
    ∀ fs, (nodesOf (sitesFields fs)).Nodup →
      AllFit scope (namesFields scope fs) (sitesFields fs)
        (fun p x => (specFields env (fs.map (renField p x))).2)
  | [], _ => .nil ..
  | .recur :: fs, hn => fit_fields h fs hn
  | .type t :: fs, hn => by
    simp only [namesFields, sitesFields, List.map_cons, renField, specFields] at hn ⊢
    obtain ⟨n1, n2, d1, d2⟩ := nodup_append hn
    refine .append ((fit_ty h t n1).congr fun p hp x => ?_) ((fit_fields h fs n2).congr fun p hp x => ?_)
    · obtain ⟨e1, e2⟩ := free_specFields x env fs (d1 p hp)
      simp only [RefAt.append, e1, NoRef.iff.1 e2, or_false]
    · obtain ⟨e1, e2⟩ := free_specTy x env t (d2 p hp)
      simp only [RefAt.append, e1, NoRef.iff.1 e2, false_or]

/-- what the fields of all cases report -/
def casesOut (env : Env) : List CaseSyntax → SOut
  | [] => {}
  | c :: cs => (specFields env c.fields).2 ++ casesOut env cs

theorem refAt_casesOut {p : Nat} {env : Env} (ty : Target) (ps : List Target) (vis : Vis) :
    ∀ cs names, RefAt p (specTypeCases env ty ps vis cs names).2 ↔ RefAt p (casesOut env cs)
  | [], names => by simp only [specTypeCases, casesOut]
  | c :: cs, names => by
    have ih := refAt_casesOut (p := p) (env := env) ty ps vis cs
    simp only [specTypeCases, casesOut]
    split
    · simp only [RefAt.append, ih]
    · split
      · simp only [RefAt.append, ih, RefAt.oErr, false_or]
      · simp only [RefAt.append, ih, RefAt.oDef, false_or]

theorem free_casesOut {p : Nat} (x : String) (env : Env) : ∀ cs, p ∉ nodesOf (sitesTypeCases cs) →
    ¬ RefAt p (casesOut env (cs.map (renTypeCase p x)))
  | [], _ => NoRef.iff.1 (.nil p)
  | c :: cs, h => by
    rw [sitesTypeCases, not_mem_append'] at h
    obtain ⟨a1, a2⟩ := free_specFields x env c.fields h.1
    simp only [List.map_cons, casesOut, renTypeCase, RefAt.append, a1, NoRef.iff.1 a2, false_or]
    exact free_casesOut x env cs h.2

theorem fit_typeCases {me : Nat} {scope : Scope} {env : Env} (h : Agree me scope env) :
    ∀ cs, (nodesOf (sitesTypeCases cs)).Nodup →
      AllFit scope (cs.flatMap fun c => namesFields scope c.fields) (sitesTypeCases cs)
        (fun p x => casesOut env (cs.map (renTypeCase p x)))
  | [], _ => .nil ..
  | c :: cs, hn => by
    simp only [List.flatMap_cons, sitesTypeCases, List.map_cons, casesOut, renTypeCase] at hn ⊢
    obtain ⟨n1, n2, d1, d2⟩ := nodup_append hn
    refine .append ((fit_fields h c.fields n1).congr fun p hp x => ?_)
      ((fit_typeCases h cs n2).congr fun p hp x => ?_)
    · have e := free_casesOut x env cs (d1 p hp)
      simp only [RefAt.append]
      exact or_iff_left e
    · obtain ⟨e1, e2⟩ := free_specFields x env c.fields (d2 p hp)
      simp only [RefAt.append, e1, NoRef.iff.1 e2, false_or]

/-- Every callback for an item fits its site. -/
theorem fit_item {me : Nat} {scope : Scope} {env : Env} (h : Agree me scope env) (st : St) (i : Item)
    (hn : (nodesOf (sitesItem i)).Nodup) :
    AllFit scope (namesItem me scope st i) (sitesItem i) (fun p x => specItem me env (renItem p x i)) := by
  cases i with
  | importI => exact .nil ..
  | typeI node a b n ps cs =>
    simp only [namesItem, sitesItem, renItem, specItem, specTypeItem] at hn ⊢
    have hp := (bindParams_spec ps _ _ h.child (st.fresh me (typeTag node n)).2).1
    refine ((fit_typeCases hp cs hn).base ((SameMods.bindParams ..).trans (.child _))).congr
      fun p hp x => ?_
    simp only [RefAt.append, refAt_casesOut, NoRef.iff.1 (NoRef.oParams ..), false_or]
    cases n with
    | none => simp only [NoRef.iff.1 (NoRef.nil p), or_false]
    | some n => simp only [RefAt.oDef, or_false]
  | valueI a n ty v =>
    simp only [namesItem, sitesItem, renItem, specItem, specValueItem] at hn ⊢
    obtain ⟨n1, n2, d1, d2⟩ := nodup_append hn
    have hs := resolveAnn_spec ty ⟨scope.child, [], st⟩ env h.child
    have ha := fit_ann ty ⟨scope.child, [], st⟩ env h.child n1
    have hv := fun st' => fit_expr v _ _ st' hs.2.agree n2
    refine .append ((ha.base (.child _)).congr fun p hp x => ?_)
      (((hv _).base ((SameMods.ann ..).trans (.child _))).congr fun p hp x => ?_)
    · obtain ⟨e1, e2⟩ := free_specExpr x v (specAnn env (renAnn p x ty)).env (d1 p hp)
      cases n with
      | none => simp only [RefAt.append, e1, NoRef.iff.1 e2, NoRef.iff.1 (NoRef.nil p), or_false]
      | some n => simp only [RefAt.append, RefAt.oDef, e1, NoRef.iff.1 e2, or_false]
    · obtain ⟨e1, e2⟩ := free_specAnn x ty env (d2 p hp)
      cases n with
      | none => simp only [RefAt.append, e1, NoRef.iff.1 e2, NoRef.iff.1 (NoRef.nil p), false_or]
      | some n => simp only [RefAt.append, RefAt.oDef, e1, NoRef.iff.1 e2, false_or]

end Tic.Resolve

namespace Tic.Api

open Tic.Resolve

/-! ## The list of names -/

theorem mem_keys {α : Type} {x : String} {m : List (String × α)} : x ∈ keys m ↔ (Resolve.get x m).isSome := by
  induction m with
  | nil => simp [keys, Resolve.get]
  | cons a m ih =>
    obtain ⟨y, b⟩ := a
    simp only [keys, List.map_cons, List.mem_cons, Resolve.get]
    simp only [keys] at ih
    split
    · next h => simp [h]
    · next h => rw [ih]; simp [Ne.symm h]

theorem mem_dedup {x : String} : ∀ l, x ∈ dedup l ↔ x ∈ l
  | [] => Iff.rfl
  | [a] => Iff.rfl
  | a :: b :: r => by
    rw [dedup]
    have ih := mem_dedup (x := x) (b :: r)
    split
    · next h => subst h; rw [ih]; simp
    · rw [List.mem_cons, ih, List.mem_cons (b := a)]

theorem dedup_sorted : ∀ l : List String, l.Pairwise (· ≤ ·) → (dedup l).Pairwise (· < ·)
  | [], _ => .nil
  | [a], _ => by simp [dedup]
  | a :: b :: r, h => by
    rw [dedup]
    have h' := List.pairwise_cons.1 h
    split
    · exact dedup_sorted _ h'.2
    · next hne =>
      refine List.pairwise_cons.2 ⟨fun x hx => ?_, dedup_sorted _ h'.2⟩
      rw [mem_dedup] at hx
      have hb := (List.pairwise_cons.1 h'.2).1
      have hab := h'.1 b (by simp)
      rcases List.mem_cons.1 hx with rfl | hx
      · exact Std.lt_of_le_of_ne hab hne
      · exact Std.lt_of_lt_of_le (Std.lt_of_le_of_ne hab hne) (hb x hx)

theorem offered_sorted (ev : Ev) : (offered ev).Pairwise (· < ·) := by
  unfold offered
  apply dedup_sorted
  have := List.pairwise_mergeSort (le := fun a b : String => decide (a ≤ b))
    (fun a b c h1 h2 => by simp only [decide_eq_true_eq] at *; exact Std.le_trans h1 h2)
    (fun a b => by simp only [Bool.or_eq_true, decide_eq_true_eq]; exact Std.le_total)
    (ev.scope.flatMap (frameNames ev.usage ev.space))
  exact this.imp fun h => by simpa using h

theorem mem_offered {ev : Ev} {x : String} :
    x ∈ offered ev ↔ ∃ f ∈ ev.scope, x ∈ frameNames ev.usage ev.space f := by
  simp only [offered, mem_dedup, List.mem_mergeSort, List.mem_flatMap]

end Tic.Api
