/-
Which expression is found at a position.
-/
import Verif.Hover
import Verif.PropParser

namespace Tic.Hover

open Tic.Parser

/-- What is strictly inside a node. -/
def below (e : Elem) : List Elem := descendants.go (children e)

theorem descendants_node (id k sp f cs) : descendants (.node id k sp f cs) = .node id k sp f cs :: descendants.go cs := by rw [descendants]
theorem go_cons (c cs) : descendants.go (c :: cs) = descendants c ++ descendants.go cs := by rw [descendants.go]
theorem below_node (id k sp f cs) : below (.node id k sp f cs) = descendants.go cs := rfl

mutual
theorem ids_eq : ∀ c : Elem, (descendants c).map nodeId = c.ids
  | .node id k sp f cs => by rw [descendants_node, List.map_cons, ids_go_eq cs, Elem.ids]; rfl
  | .token _ _ => by simp [descendants, Elem.ids]
  | .trivia _ _ => by simp [descendants, Elem.ids]
theorem ids_go_eq : ∀ cs : List Elem, (descendants.go cs).map nodeId = Elem.ids.go cs
  | [] => by simp [descendants.go, Elem.ids.go]
  | c :: cs => by rw [go_cons, List.map_append, ids_eq c, ids_go_eq cs, Elem.ids.go]
end

mutual
theorem wf_below : ∀ {c : Elem}, c.Wf → ∀ d ∈ descendants c, d.Wf ∧ c.full.1 ≤ d.full.1 ∧ d.full.2 ≤ c.full.2
  | .node id k sp f cs, h, d, hd => by
    rw [descendants_node, List.mem_cons] at hd
    rcases hd with rfl | hd
    · exact ⟨h, Nat.le_refl _, Nat.le_refl _⟩
    · simp only [Elem.Wf] at h
      exact wf_go h.1 (Elem.Wf_go.mp h.2.2.2.2) d hd
  | .token _ _, _, _, hd => by simp [descendants] at hd
  | .trivia _ _, _, _, hd => by simp [descendants] at hd
theorem wf_go : ∀ {cs : List Elem} {a b}, Tiles a b cs → (∀ c ∈ cs, c.Wf) → ∀ d ∈ descendants.go cs, d.Wf ∧ a ≤ d.full.1 ∧ d.full.2 ≤ b
  | [], _, _, _, _, d, hd => by simp [descendants.go] at hd
  | c :: cs, a, b, ht, hw, d, hd => by
    have hc := full_le (hw c (by simp))
    have hr := ht.2.le fun c hc => hw c (by simp [hc])
    have h1 := ht.1
    rw [go_cons, List.mem_append] at hd
    rcases hd with hd | hd
    · have := wf_below (hw c (by simp)) d hd
      exact ⟨this.1, by omega, by omega⟩
    · have := wf_go ht.2 (fun c hc => hw c (by simp [hc])) d hd
      exact ⟨this.1, by omega, by omega⟩
end

/-- The last of those nodes for which a property holds: nothing inside it has the property, and whatever has it is the node, or
encloses it, or is before it. -/
structure LastIs (P : Elem → Bool) (l : List Elem) (x : Elem) : Prop where
  mem : x ∈ l
  holds : P x = true
  inner : ∀ y ∈ below x, P y = false
  others : ∀ d ∈ l, P d = true → d = x ∨ x ∈ below d ∨ d.full.2 ≤ x.full.1

theorem none_of_last {α : Type} {P : α → Bool} {l : List α} (h : (l.filter P).getLast? = none) : ∀ y ∈ l, P y = false := by
  rw [List.getLast?_eq_none_iff, List.filter_eq_nil_iff] at h
  intro y hy
  simpa using h y hy

mutual
theorem last_node {P : Elem → Bool} : ∀ {c : Elem}, c.Wf → ∀ {x}, ((descendants c).filter P).getLast? = some x → LastIs P (descendants c) x
  | .node id k sp f cs, h, x, hx => by
    rw [descendants_node] at hx ⊢
    have hw : Tiles f.1 f.2 cs ∧ ∀ c ∈ cs, c.Wf := by
      simp only [Elem.Wf] at h
      exact ⟨h.1, Elem.Wf_go.mp h.2.2.2.2⟩
    cases e : ((descendants.go cs).filter P).getLast? with
    | some y =>
      have : y = x := by
        rw [List.filter_cons] at hx
        split at hx
        · rw [List.getLast?_cons, e] at hx; simpa using hx
        · rw [e] at hx; simpa using hx
      subst this
      have ih := last_go hw.1 hw.2 e
      refine ⟨List.mem_cons_of_mem _ ih.mem, ih.holds, ih.inner, fun d hd hp => ?_⟩
      rcases List.mem_cons.mp hd with rfl | hd
      · exact .inr (.inl ih.mem)
      · exact ih.others d hd hp
    | none =>
      have hn := none_of_last e
      have hf : (descendants.go cs).filter P = [] := by rwa [List.getLast?_eq_none_iff] at e
      rw [List.filter_cons, hf] at hx
      split at hx
      · rename_i hp
        simp only [List.getLast?_singleton, Option.some.injEq] at hx
        subst hx
        refine ⟨by simp, hp, hn, fun d hd hp => ?_⟩
        rcases List.mem_cons.mp hd with rfl | hd
        · exact .inl rfl
        · rw [hn d hd] at hp; cases hp
      · simp at hx
  | .token _ _, _, _, hx => by simp [descendants] at hx
  | .trivia _ _, _, _, hx => by simp [descendants] at hx
theorem last_go {P : Elem → Bool} : ∀ {cs : List Elem} {a b}, Tiles a b cs → (∀ c ∈ cs, c.Wf) → ∀ {x}, ((descendants.go cs).filter P).getLast? = some x →
    LastIs P (descendants.go cs) x
  | [], _, _, _, _, x, hx => by simp [descendants.go] at hx
  | c :: cs, a, b, ht, hw, x, hx => by
    rw [go_cons] at hx ⊢
    rw [List.filter_append, List.getLast?_append] at hx
    cases e : ((descendants.go cs).filter P).getLast? with
    | some y =>
      rw [e] at hx
      simp only [Option.some_or, Option.some.injEq] at hx
      subst hx
      have ih := last_go ht.2 (fun c hc => hw c (by simp [hc])) e
      refine ⟨by simp [ih.mem], ih.holds, ih.inner, fun d hd hp => ?_⟩
      rcases List.mem_append.mp hd with hd | hd
      · have h1 := wf_below (hw c (by simp)) d hd
        have h2 := wf_go ht.2 (fun c hc => hw c (by simp [hc])) y ih.mem
        exact .inr (.inr (by omega))
      · exact ih.others d hd hp
    | none =>
      have hn := none_of_last e
      rw [e] at hx
      simp only [Option.none_or] at hx
      have ih := last_node (hw c (by simp)) hx
      refine ⟨by simp [ih.mem], ih.holds, ih.inner, fun d hd hp => ?_⟩
      rcases List.mem_append.mp hd with hd | hd
      · exact ih.others d hd hp
      · rw [hn d hd] at hp; cases hp
end

/-- An expression at a position. -/
def here (pos : Nat) (d : Elem) : Bool := exprNode d && touches d.span pos

theorem go_map {I : Type} (syn : I → Elem) : ∀ items : List I, descendants.go (items.map syn) = items.flatMap fun i => descendants (syn i)
  | [] => by simp [descendants.go]
  | i :: items => by rw [List.map_cons, go_cons, go_map syn items, List.flatMap_cons]

/-- The filter on items leaves out nothing. -/
theorem found_list {I : Type} {syn : I → Elem} (pos : Nat) : ∀ {items : List I}, (∀ i ∈ items, (syn i).Wf) →
    ((items.filter fun i => touches (syn i).full pos).flatMap fun i =>
      (((descendants (syn i)).filter fun n => touches n.span pos).filter exprNode).map fun e => (i, e)) =
    items.flatMap fun i => ((descendants (syn i)).filter (here pos)).map fun e => (i, e)
  | [], _ => rfl
  | i :: items, h => by
    have ih := found_list (syn := syn) pos (items := items) fun j hj => h j (by simp [hj])
    have e : ((descendants (syn i)).filter fun n => touches n.span pos).filter exprNode = (descendants (syn i)).filter (here pos) := by
      rw [List.filter_filter]; rfl
    rw [List.filter_cons, List.flatMap_cons]
    split
    · rw [List.flatMap_cons, ih, e]
    · rename_i ht
      rw [ih]
      have : (descendants (syn i)).filter (here pos) = [] := by
        rw [List.filter_eq_nil_iff]
        intro d hd hh
        have h1 := wf_below (h i (by simp)) d hd
        have h2 := full_le h1.1
        simp only [here, touches, Bool.and_eq_true, decide_eq_true_eq] at hh ht
        omega
      rw [this]; rfl

theorem last_map {α β γ : Type} {P : β → Bool} (g : α → List β) : ∀ {l : List α} {x : α × β}, (l.flatMap fun i => ((g i).filter P).map fun e => (i, e)).getLast? = some x →
    x.1 ∈ l ∧ x.2 ∈ g x.1 ∧ ((l.flatMap g).filter P).getLast? = some x.2 := by
  intro l x hx
  refine ⟨?_, ?_, ?_⟩
  · have := List.mem_of_getLast? hx
    simp only [List.mem_flatMap, List.mem_map, List.mem_filter] at this
    obtain ⟨i, hi, e, he, rfl⟩ := this
    exact hi
  · have := List.mem_of_getLast? hx
    simp only [List.mem_flatMap, List.mem_map, List.mem_filter] at this
    obtain ⟨i, hi, e, he, rfl⟩ := this
    exact he.1
  · have : ((l.flatMap fun i => ((g i).filter P).map fun e => (i, e))).map Prod.snd = (l.flatMap g).filter P := by
      rw [List.filter_flatMap, List.map_flatMap]
      simp [Function.comp_def]
    rw [← this, List.getLast?_map, hx]; rfl

variable {I : Type} {syn : I → Elem} {items : List I} {pos : Nat}

/-- **C53**, what is found: an expression at the position such that no expression inside it is there too; and any other expression
there, in whatever item, is around it, or it ends at the position and the one that is found begins there. -/
theorem found_expr {a b : Nat} (ht : Tiles a b (items.map syn)) (hw : ∀ i ∈ items, (syn i).Wf) {i x} (h : findExpr syn items pos = some (i, x)) :
    i ∈ items ∧ x ∈ descendants (syn i) ∧ exprNode x = true ∧ touches x.span pos = true ∧ (∀ y ∈ below x, exprNode y = true → touches y.span pos = false) ∧
      ∀ j ∈ items, ∀ d ∈ descendants (syn j), exprNode d = true → touches d.span pos = true → d = x ∨ x ∈ below d ∨ (d.span.2 = pos ∧ x.span.1 = pos) := by
  unfold findExpr at h
  rw [found_list pos hw] at h
  obtain ⟨h1, h2, h3⟩ := last_map (γ := Unit) (fun i => descendants (syn i)) h
  have hw' : ∀ c ∈ items.map syn, c.Wf := by
    intro c hc
    obtain ⟨j, hj, rfl⟩ := List.mem_map.mp hc
    exact hw j hj
  rw [← go_map] at h3
  simp only at h1 h2 h3
  have hl := last_go ht hw' h3
  have hx := hl.holds
  simp only [here, Bool.and_eq_true] at hx
  refine ⟨h1, h2, hx.1, hx.2, fun y hy he => ?_, fun j hj d hd he hp => ?_⟩
  · have := hl.inner y hy
    simpa [here, he] using this
  · have hd' : d ∈ descendants.go (items.map syn) := by rw [go_map]; exact List.mem_flatMap.mpr ⟨j, hj, hd⟩
    rcases hl.others d hd' (by simp [here, he, hp]) with h | h | h
    · exact .inl h
    · exact .inr (.inl h)
    · refine .inr (.inr ?_)
      have g1 := full_le (wf_go ht hw' d hd').1
      have g2 := full_le (wf_go ht hw' x hl.mem).1
      have hx2 := hx.2
      simp only [touches, Bool.and_eq_true, decide_eq_true_eq] at hp hx2
      omega

/-- **C53**, nothing is found exactly where there is no expression. -/
theorem found_none (hw : ∀ i ∈ items, (syn i).Wf) :
    findExpr syn items pos = none ↔ ∀ j ∈ items, ∀ d ∈ descendants (syn j), exprNode d = true → touches d.span pos = false := by
  unfold findExpr
  rw [found_list pos hw, List.getLast?_eq_none_iff, List.flatMap_eq_nil_iff]
  constructor
  · intro h j hj d hd he
    have := h j hj
    rw [List.map_eq_nil_iff, List.filter_eq_nil_iff] at this
    simpa [here, he] using this d hd
  · intro h j hj
    rw [List.map_eq_nil_iff, List.filter_eq_nil_iff]
    intro d hd hh
    simp only [here, Bool.and_eq_true] at hh
    rw [h j hj d hd hh.1] at hh
    cases hh.2

end Tic.Hover
