/-
Nodes that consist of one token: reordering the events keeps them together.
-/
import Verif.LeafParse

namespace Tic.Lower

open Tic.Parser

theorem chain_mem : ∀ n (es : List Event) (i j : Nat), j ∈ (chain n es i).1 → j = i ∨ ∃ (q : Nat) (k : SyntaxKind), es[q]? = some (Event.startNode k (some j))
  | 0, es, i, j, h => by simp [chain] at h
  | n + 1, es, i, j, h => by
    unfold chain at h
    split at h
    · rename_i k j' hi
      simp only [List.mem_cons] at h
      rcases h with h | h
      · exact .inl h
      · rcases chain_mem n _ _ _ h with rfl | ⟨q, k', hq⟩
        · exact .inr ⟨i, k, hi⟩
        · by_cases e : q = i
          · subst e
            rw [List.getElem?_set_self (lt_of_get hi)] at hq
            simp at hq
          · rw [List.getElem?_set_ne (Ne.symm e)] at hq
            exact .inr ⟨q, k', hq⟩
    · simp only [List.mem_singleton] at h; exact .inl h
    · simp at h

theorem chain_head {n es i k j} (h : es[i]? = some (Event.startNode k (some j))) : ∃ r, (chain (n + 1) es i).1 = i :: r ∧
    ∀ x ∈ r, ∃ (q : Nat) (k : SyntaxKind), es[q]? = some (Event.startNode k (some x)) := by
  refine ⟨(chain n (es.set i (.startNode k none)) j).1, by conv => lhs; unfold chain; simp only [h], fun x hx => ?_⟩
  rcases chain_mem n _ _ _ hx with rfl | ⟨q, k', hq⟩
  · exact ⟨i, k, h⟩
  · by_cases e : q = i
    · subst e
      rw [List.getElem?_set_self (lt_of_get h)] at hq
      simp at hq
    · rw [List.getElem?_set_ne (Ne.symm e)] at hq
      exact ⟨q, k', hq⟩

theorem chain_get : ∀ n (es : List Event) (i j : Nat), (chain n es i).2[j]? = es[j]? ∨
    ∃ k f, es[j]? = some (Event.startNode k f) ∧ (chain n es i).2[j]? = some (Event.startNode k none)
  | 0, es, i, j => .inl rfl
  | n + 1, es, i, j => by
    unfold chain
    split
    · rename_i k j' hi
      simp only
      have ih := chain_get n (es.set i (.startNode k none)) j' j
      by_cases e : j = i
      · subst e
        rw [List.getElem?_set_self (lt_of_get hi)] at ih
        rcases ih with ih | ⟨k', f, h1, h2⟩
        · exact .inr ⟨k, _, hi, ih⟩
        · simp only [Option.some.injEq, Event.startNode.injEq] at h1
          exact .inr ⟨k, _, hi, by rw [h2, h1.1]⟩
      · rw [List.getElem?_set_ne (Ne.symm e)] at ih
        exact ih
    · exact .inl rfl
    · exact .inl rfl

theorem takeOut_get : ∀ (is : List Nat) (es : List Event) (j : Nat), (takeOut es is).2[j]? = es[j]? ∨ ((takeOut es is).2[j]? = some .placeholder ∧ j ∈ is)
  | [], es, j => .inl rfl
  | i :: is, es, j => by
    unfold takeOut
    simp only
    have ih := takeOut_get is (es.set i .placeholder) j
    by_cases e : j = i
    · subst e
      rw [List.getElem?_set] at ih
      simp only [if_true] at ih
      split at ih
      · rcases ih with ih | ih
        · exact .inr ⟨ih, by simp⟩
        · exact .inr ⟨ih.1, by simp⟩
      · rename_i hl
        rcases ih with ih | ih
        · exact .inl (by rw [ih, List.getElem?_eq_none (by omega)])
        · exact .inr ⟨ih.1, by simp⟩
    · rw [List.getElem?_set_ne (Ne.symm e)] at ih
      rcases ih with ih | ih
      · exact .inl ih
      · exact .inr ⟨ih.1, by simp [ih.2]⟩

theorem takeOut_vals : ∀ (is : List Nat) (es : List Event), ∀ e ∈ (takeOut es is).1, e = .placeholder ∨ ∃ j ∈ is, es[j]? = some e
  | [], es, e, h => by simp [takeOut] at h
  | i :: is, es, e, h => by
    unfold takeOut at h
    simp only [List.mem_cons] at h
    rcases h with h | h
    · cases hi : es[i]? with
      | none => rw [hi] at h; exact .inl h
      | some x => rw [hi] at h; subst h; exact .inr ⟨i, by simp, by simpa using hi⟩
    · rcases takeOut_vals is _ e h with h | ⟨j, hj, h⟩
      · exact .inl h
      · by_cases e' : j = i
        · subst e'
          rw [List.getElem?_set] at h
          simp only [if_true] at h
          split at h
          · exact .inl (Option.some.inj h).symm
          · cases h
        · rw [List.getElem?_set_ne (Ne.symm e')] at h
          exact .inr ⟨j, by simp [hj], h⟩

theorem takeOut_snoc : ∀ (is : List Nat) (es : List Event) (i : Nat), (takeOut es (is ++ [i])).1 = (takeOut es is).1 ++ [((takeOut es is).2[i]?).getD .placeholder]
  | [], es, i => by simp [takeOut]
  | x :: is, es, i => by
    simp only [List.cons_append, takeOut]
    rw [takeOut_snoc is]

/-- The invariant of the rounds. -/
structure Kept (D : List Event) (i : Nat) (es out : List Event) : Prop where
  sub : ∀ j : Nat, es[j]? = D[j]? ∨ (∃ k f, D[j]? = some (Event.startNode k f) ∧ es[j]? = some (Event.startNode k none)) ∨
    (es[j]? = some .placeholder ∧ (j < i ∨ ∃ k f, D[j]? = some (Event.startNode k f)))
  fine : ∀ (x : Nat) k f, out[x]? = some (Event.startNode k f) → single k = true →
    (∃ t, out[x + 1]? = some (Event.addToken t) ∧ wraps k t = true ∧ out[x + 2]? = some Event.finishNode) ∨
    (x + 1 = out.length ∧ ∃ j f', i = j + 1 ∧ D[j]? = some (Event.startNode k f')) ∨
    (x + 2 = out.length ∧ (∃ t, out[x + 1]? = some (Event.addToken t) ∧ wraps k t = true) ∧ ∃ j f', i = j + 2 ∧ D[j]? = some (Event.startNode k f'))

/-- Adding to the output. -/
theorem Kept.next {D i es out es' A} (hD : Single D) (h : Kept D i es out)
    (sub : ∀ j : Nat, es'[j]? = D[j]? ∨ (∃ k f, D[j]? = some (Event.startNode k f) ∧ es'[j]? = some (Event.startNode k none)) ∨
      (es'[j]? = some .placeholder ∧ (j < i + 1 ∨ ∃ k f, D[j]? = some (Event.startNode k f))))
    (tok : ∀ t, D[i]? = some (Event.addToken t) → A = [.addToken t]) (fin : D[i]? = some Event.finishNode → A = [.finishNode])
    (new : ∀ (x : Nat) k f, A[x]? = some (Event.startNode k f) → single k = true → x + 1 = A.length ∧ ∃ f', D[i]? = some (Event.startNode k f')) :
    Kept D (i + 1) es' (out ++ A) := by
  refine ⟨sub, fun x k f hx hk => ?_⟩
  by_cases hlt : x < out.length
  · have hx' : out[x]? = some (Event.startNode k f) := by rwa [List.getElem?_append_left hlt] at hx
    have up : ∀ (y : Nat) e, out[y]? = some e → (out ++ A)[y]? = some e := by
      intro y e hy; rw [List.getElem?_append_left (lt_of_get hy)]; exact hy
    rcases h.fine x k f hx' hk with ⟨t, h1, h2, h3⟩ | ⟨h1, j, f', rfl, hj⟩ | ⟨h1, ⟨t, h2, h3⟩, j, f', rfl, hj⟩
    · exact .inl ⟨t, up _ _ h1, h2, up _ _ h3⟩
    · obtain ⟨t, e1, e2, e3⟩ := hD.leaf j k f' hj hk
      have hA := tok t e1
      subst hA
      refine .inr (.inr ⟨by simp; omega, ⟨t, ?_, e2⟩, j, f', rfl, hj⟩)
      rw [h1]; simp
    · obtain ⟨t', e1, e2, e3⟩ := hD.leaf j k f' hj hk
      have hA := fin e3
      subst hA
      refine .inl ⟨t, up _ _ h2, h3, ?_⟩
      rw [h1]; simp
  · rw [List.getElem?_append_right (by omega)] at hx
    obtain ⟨h1, f', h2⟩ := new _ k f hx hk
    refine .inr (.inl ⟨by simp; omega, i, f', rfl, h2⟩)

theorem Kept.step {D i es out} (hD : Single D) (hL : ∀ (q : Nat) k x, D[q]? = some (Event.startNode k (some x)) → ∃ k' f, D[x]? = some (Event.startNode k' f)) (hi : i < D.length) (h : Kept D i es out) : Kept D (i + 1) (reorderStep es out i).1 (reorderStep es out i).2 := by
  have old : ∀ j : Nat, es[j]? = D[j]? ∨ (∃ k f, D[j]? = some (Event.startNode k f) ∧ es[j]? = some (Event.startNode k none)) ∨
      (es[j]? = some .placeholder ∧ (j < i + 1 ∨ ∃ k f, D[j]? = some (Event.startNode k f))) := by
    intro j
    rcases h.sub j with h1 | h1 | ⟨h1, h2 | h2⟩
    · exact .inl h1
    · exact .inr (.inl h1)
    · exact .inr (.inr ⟨h1, .inl (by omega)⟩)
    · exact .inr (.inr ⟨h1, .inr h2⟩)
  -- the event itself
  have self : ∀ e, D[i]? = some e → (∀ k f, e ≠ Event.startNode k f) → es[i]? = some e := by
    intro e he hs
    rcases h.sub i with h1 | ⟨k, f, h1, -⟩ | ⟨h1, h2 | ⟨k, f, h2⟩⟩
    · rw [h1]; exact he
    · rw [h1] at he; exact absurd (Option.some.inj he).symm (hs k f)
    · omega
    · rw [h2] at he; exact absurd (Option.some.inj he).symm (hs k f)
  have kind : ∀ (j : Nat) k f, es[j]? = some (Event.startNode k f) → ∃ f', D[j]? = some (Event.startNode k f') := by
    intro j k f hj
    rcases h.sub j with h1 | ⟨k', f', h1, h2⟩ | ⟨h1, -⟩
    · exact ⟨f, by rw [← h1]; exact hj⟩
    · rw [h2] at hj
      simp only [Option.some.injEq, Event.startNode.injEq] at hj
      exact ⟨f', by rw [h1, hj.1]⟩
    · rw [h1] at hj; simp at hj
  have link : ∀ (q : Nat) k x, es[q]? = some (Event.startNode k (some x)) → D[q]? = some (Event.startNode k (some x)) := by
    intro q k x hq
    rcases h.sub q with h1 | ⟨k', f', h1, h2⟩ | ⟨h1, -⟩
    · rw [← h1]; exact hq
    · rw [h2] at hq; simp at hq
    · rw [h1] at hq; simp at hq
  unfold reorderStep
  split
  · -- a chain
    rename_i k j hs
    simp only
    obtain ⟨rest, e1, e2⟩ := chain_head (n := es.length) hs
    have hc := chain_get (es.length + 1) es i
    generalize hcc : chain (es.length + 1) es i = c at e1 hc
    rw [e1, List.reverse_cons]
    have hDi := link i k j hs
    refine h.next hD ?_ ?_ ?_ ?_
    · intro x
      rcases takeOut_get (rest.reverse ++ [i]) c.2 x with g | ⟨g, gm⟩
      · rw [g]
        rcases hc x with g1 | ⟨k', f, g1, g2⟩
        · rw [g1]; exact old x
        · obtain ⟨f', g3⟩ := kind x k' f g1
          exact .inr (.inl ⟨k', f', g3, g2⟩)
      · refine .inr (.inr ⟨g, ?_⟩)
        simp only [List.mem_append, List.mem_reverse, List.mem_singleton] at gm
        rcases gm with gm | rfl
        · obtain ⟨q, k', hq⟩ := e2 x gm
          exact .inr (hL q k' x (link q k' x hq))
        · exact .inl (by omega)
    · intro t ht; rw [hDi] at ht; simp at ht
    · intro ht; rw [hDi] at ht; simp at ht
    · rw [takeOut_snoc]
      intro x k' f hx hk
      have ofc : ∀ (y : Nat), c.2[y]? = some (Event.startNode k' f) → ∃ f', D[y]? = some (Event.startNode k' f') := by
        intro y hy
        rcases hc y with g1 | ⟨k'', f'', g1, g2⟩
        · rw [g1] at hy; exact kind y k' f hy
        · rw [g2] at hy
          simp only [Option.some.injEq, Event.startNode.injEq] at hy
          rw [← hy.1]; exact kind y k'' f'' g1
      rw [List.getElem?_append] at hx
      split at hx
      · rcases takeOut_vals _ _ _ (List.mem_of_getElem? hx) with g | ⟨y, hy, g⟩
        · cases g
        · rw [List.mem_reverse] at hy
          obtain ⟨q, kq, hq⟩ := e2 y hy
          obtain ⟨f', g'⟩ := ofc y g
          rw [(hD.link q kq y (link q kq y hq)).2 k' f' g'] at hk
          cases hk
      · rename_i hlt
        have hx0 : x - (takeOut c.2 rest.reverse).1.length = 0 := by
          have := lt_of_get hx; simp at this; omega
        rw [hx0] at hx
        simp only [List.getElem?_cons_zero, Option.some.injEq] at hx
        refine ⟨by simp; omega, ?_⟩
        cases hg : (takeOut c.2 rest.reverse).2[i]? with
        | none => rw [hg] at hx; cases hx
        | some e =>
          rw [hg] at hx
          simp only [Option.getD_some] at hx
          subst hx
          rcases takeOut_get rest.reverse c.2 i with g | ⟨g, -⟩
          · rw [g] at hg; exact ofc i hg
          · rw [g] at hg; cases hg
  · -- nothing left
    rename_i hs
    have : Kept D (i + 1) es (out ++ []) := by
      refine h.next hD old ?_ ?_ (by simp)
      · intro t ht; have := self _ ht (by simp); rw [hs] at this; cases this
      · intro ht; have := self _ ht (by simp); rw [hs] at this; cases this
    simpa using this
  · rename_i e h1 h2 hs
    have hlt := lt_of_get hs
    refine h.next hD ?_ ?_ ?_ ?_
    · intro x
      by_cases e : x = i
      · subst e; exact .inr (.inr ⟨by rw [List.getElem?_set_self hlt], .inl (by omega)⟩)
      · rw [List.getElem?_set_ne (Ne.symm e)]; exact old x
    · intro t ht; have := self _ ht (by simp); rw [hs] at this; rw [Option.some.inj this]
    · intro ht; have := self _ ht (by simp); rw [hs] at this; rw [Option.some.inj this]
    · intro x k f hx hk
      have hx0 : x = 0 := by have := lt_of_get hx; simp at this; omega
      subst hx0
      simp only [List.getElem?_cons_zero, Option.some.injEq] at hx
      subst hx
      exact ⟨rfl, kind i k f hs⟩
  · rename_i hs
    have : Kept D (i + 1) es (out ++ []) := by
      refine h.next hD old ?_ ?_ (by simp)
      · intro t ht; have := self _ ht (by simp); rw [hs] at this; cases this
      · intro ht; have := self _ ht (by simp); rw [hs] at this; cases this
    simpa using this

theorem Kept.loop {D} (hD : Single D) (hL : ∀ (q : Nat) k x, D[q]? = some (Event.startNode k (some x)) → ∃ k' f, D[x]? = some (Event.startNode k' f)) :
    ∀ n, n ≤ D.length → Kept D n (reorderLoop D [] (List.range n)).1 (reorderLoop D [] (List.range n)).2
  | 0, _ => ⟨fun j => .inl rfl, fun x k f hx => by simp [reorderLoop] at hx⟩
  | n + 1, hn => by
    have ih := Kept.loop hD hL n (by omega)
    have e : reorderLoop D [] (List.range (n + 1)) = reorderStep (reorderLoop D [] (List.range n)).1 (reorderLoop D [] (List.range n)).2 n := by
      simp [reorderLoop, List.range_succ]
    rw [e]
    exact ih.step hD hL (by omega)

/-- Events in which every node of one token is made of its start, its token and its end. -/
inductive Whole : List Event → Prop
  | nil : Whole []
  | leaf {k f t es} : single k = true → wraps k t = true → Whole es → Whole (.startNode k f :: .addToken t :: .finishNode :: es)
  | other {e es} : (∀ k f, e = Event.startNode k f → single k = false) → Whole es → Whole (e :: es)

theorem whole_of : ∀ (n : Nat) (es : List Event), es.length ≤ n → (∀ (x : Nat) k f, es[x]? = some (Event.startNode k f) → single k = true →
    ∃ t, es[x + 1]? = some (Event.addToken t) ∧ wraps k t = true ∧ es[x + 2]? = some Event.finishNode) → Whole es
  | _, [], _, _ => .nil
  | n + 1, e :: es, hn, h => by
    simp only [List.length_cons] at hn
    by_cases hs : ∃ k f, e = Event.startNode k f ∧ single k = true
    · obtain ⟨k, f, rfl, hk⟩ := hs
      obtain ⟨t, h1, h2, h3⟩ := h 0 k f rfl hk
      match es, h1, h3 with
      | a :: b :: es, h1, h3 =>
        simp only [Nat.zero_add, List.getElem?_cons_succ, List.getElem?_cons_zero, Option.some.injEq] at h1 h3
        subst h1 h3
        refine .leaf hk h2 (whole_of n es (by simp at hn; omega) fun x k' f' hx hk' => ?_)
        exact h (x + 3) k' f' (by simpa using hx) hk'
    · refine .other (fun k f he => ?_) (whole_of n es (by omega) fun x k' f' hx hk' => h (x + 1) k' f' (by simpa using hx) hk')
      cases hk : single k with
      | false => rfl
      | true => exact absurd ⟨k, f, he, hk⟩ hs

theorem reorder_whole {D out} (hD : Single D) (hL : ∀ (q : Nat) k x, D[q]? = some (Event.startNode k (some x)) → ∃ k' f, D[x]? = some (Event.startNode k' f))
    (h : reorder D = some out) : Whole out := by
  have hk := Kept.loop hD hL D.length (Nat.le_refl _)
  unfold reorder at h
  simp only at h
  split at h
  · simp only [Option.some.injEq] at h
    rw [h] at hk
    refine whole_of _ _ (Nat.le_refl _) fun x k f hx hs => ?_
    rcases hk.fine x k f hx hs with h1 | ⟨-, j, f', e, hj⟩ | ⟨-, -, j, f', e, hj⟩
    · exact h1
    · obtain ⟨t, g, -⟩ := hD.leaf j k f' hj hs
      have := lt_of_get g; omega
    · obtain ⟨t, -, -, g⟩ := hD.leaf j k f' hj hs
      have := lt_of_get g; omega
  · cases h

end Tic.Lower
