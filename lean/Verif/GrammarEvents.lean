/-
Which events stand for which tree, before and after `reorder_forward_parents`.
-/
import Verif.GrammarSpec
import Verif.ParserReorder

namespace Tic.Grammar

open Tic.Parser

/-- The events of trees in order. -/
def Syn.flat : Syn → List Event
  | .tok k => [.addToken k]
  | .node k cs => .startNode k none :: go cs ++ [.finishNode]
where
  go : List Syn → List Event
    | [] => []
    | c :: cs => c.flat ++ go cs

theorem flat_go_append (a b : List Syn) : Syn.flat.go (a ++ b) = Syn.flat.go a ++ Syn.flat.go b := by
  induction a with
  | nil => simp [Syn.flat.go]
  | cons c cs ih => simp [Syn.flat.go, ih]

/-- The target of the next link. -/
def nextOf (b : Nat) : List (Nat × SyntaxKind) → Option Nat → Option Nat
  | [], L => L
  | (i, _) :: _, _ => some (b + i)

/-- Putting the starts of a spine in place; `b` is the position of the first event, the positions in the spine are relative to it. -/
def link (b : Nat) (D : List Event) : List (Nat × SyntaxKind) → Option Nat → List Event
  | [], _ => D
  | (i, k) :: sp, L => link b (D.set i (.startNode k (nextOf b sp L))) sp L

mutual
/-- `D`, placed at `b`, with the starts at the spine positions taken out, holds the inside of a tree:
`ks` are the spine positions and kinds from the inside out, `out` the events of the tree after the starts, and `t` the tree. -/
inductive Tree : Nat → List Event → List (Nat × SyntaxKind) → List Event → Syn → Prop
  | one {b k D ts} : Forest (b + 1) D ts → Tree b (.placeholder :: D ++ [.finishNode]) [(0, k)] (Syn.flat.go ts ++ [.finishNode]) (.node k ts)
  | wrap {b D sp out t D1 ts1 D2 ts2 k} : Tree b D sp out t → Forest (b + D.length) D1 ts1 → Forest (b + D.length + D1.length + 1) D2 ts2 →
      Tree b (D ++ D1 ++ .placeholder :: D2 ++ [.finishNode]) (sp ++ [(D.length + D1.length, k)])
        (out ++ Syn.flat.go ts1 ++ Syn.flat.go ts2 ++ [.finishNode]) (.node k (t :: ts1 ++ ts2))
/-- `D`, placed at `b`, holds a sequence of trees. -/
inductive Forest : Nat → List Event → List Syn → Prop
  | nil {b} : Forest b [] []
  | tok {b D ts k} : Forest b D ts → Forest b (D ++ [.addToken k]) (ts ++ [.tok k])
  | tree {b D ts D' sp out t} : Forest b D ts → Tree (b + D.length) D' sp out t → Forest b (D ++ link (b + D.length) D' sp none) (ts ++ [t])
end

theorem link_length (b D sp L) : (link b D sp L).length = D.length := by
  induction sp generalizing D with
  | nil => rfl
  | cons p sp ih => obtain ⟨i, k⟩ := p; simp [link, ih]

/-- Spine positions are increasing and inside, the first is the first event, and the starts of the spine followed by the rest are the events of the tree in order. -/
structure Spine (D : List Event) (sp : List (Nat × SyntaxKind)) (out : List Event) (t : Syn) : Prop where
  inc : (sp.map Prod.fst).Pairwise (· < ·)
  ph : ∀ p ∈ sp, D[p.1]? = some .placeholder
  hd : ∃ k r, sp = (0, k) :: r
  flat : t.flat = (sp.reverse.map fun p => Event.startNode p.2 none) ++ out

theorem Tree.spine : ∀ {b D sp out t}, Tree b D sp out t → Spine D sp out t
  | _, _, _, _, _, .one (k := k) _ => ⟨by simp, by simp, ⟨k, [], rfl⟩, by simp [Syn.flat]⟩
  | _, _, _, _, _, .wrap (D := D) (D1 := D1) (sp := sp) (k := k) h _ _ => by
    have ih := h.spine
    have hlt : ∀ p ∈ sp, p.1 < D.length := fun p hp => lt_of_get (ih.ph p hp)
    refine ⟨?_, ?_, ?_, ?_⟩
    · rw [List.map_append, List.pairwise_append]
      refine ⟨ih.inc, by simp, ?_⟩
      intro a ha c hc
      obtain ⟨p, hp, rfl⟩ := List.mem_map.mp ha
      simp at hc; subst hc
      have := hlt p hp
      omega
    · intro p hp
      rcases List.mem_append.mp hp with hp | hp
      · rw [List.append_assoc, List.append_assoc, List.getElem?_append_left (hlt p hp)]
        exact ih.ph p hp
      · simp at hp; subst hp
        simp only
        rw [List.append_assoc, List.getElem?_append_right (by simp)]
        simp
    · obtain ⟨k', r, e⟩ := ih.hd
      exact ⟨k', r ++ [(D.length + D1.length, k)], by rw [e]; rfl⟩
    · simp [Syn.flat, Syn.flat.go, ih.flat, flat_go_append]

/-! ### One chain -/

/-- The events at these positions are the starts of a chain of parents. -/
def IsChain (es : List Event) : List (Nat × SyntaxKind) → Prop
  | [] => True
  | [(i, k)] => es[i]? = some (.startNode k none)
  | (i, k) :: (j, k') :: r => es[i]? = some (.startNode k (some j)) ∧ IsChain es ((j, k') :: r)

theorem IsChain.set {es : List Event} {i : Nat} {e} : ∀ {l : List (Nat × SyntaxKind)}, (∀ p ∈ l, i < p.1) → IsChain es l → IsChain (es.set i e) l
  | [], _, _ => trivial
  | [(j, k)], hi, h => by
    have := hi (j, k) (by simp)
    simp only [IsChain] at h ⊢
    rw [List.getElem?_set_ne (by simp at this; omega)]; exact h
  | (j, k) :: (j', k') :: r, hi, h => by
    have := hi (j, k) (by simp)
    simp only [IsChain] at h ⊢
    rw [List.getElem?_set_ne (by simp at this; omega)]
    exact ⟨h.1, IsChain.set (fun p hp => hi p (by simp [hp])) h.2⟩

/-- Clearing the links. -/
def cleared (es : List Event) : List (Nat × SyntaxKind) → List Event
  | [] => es
  | (i, k) :: r => cleared (es.set i (.startNode k none)) r

/-- Taking the events out. -/
def emptied (es : List Event) : List (Nat × SyntaxKind) → List Event
  | [] => es
  | (i, _) :: r => emptied (es.set i .placeholder) r

theorem set_same {es : List Event} {i : Nat} {e} (h : es[i]? = some e) : es.set i e = es := by
  apply List.ext_getElem?
  intro j
  rw [Tic.Parser.get_set (lt_of_get h)]
  split
  · subst j; exact h.symm
  · rfl

theorem chain_eq : ∀ (r : List (Nat × SyntaxKind)) (n : Nat) (es : List Event) (i : Nat) (k : SyntaxKind), (((i, k) :: r).map Prod.fst).Pairwise (· < ·) →
    IsChain es ((i, k) :: r) → r.length < n → chain n es i = (((i, k) :: r).map Prod.fst, cleared es ((i, k) :: r))
  | [], n + 1, es, i, k, _, h, _ => by
    simp only [IsChain] at h
    simp only [chain, h, cleared, List.map_cons, List.map_nil, set_same h]
  | (j, k') :: r, n + 1, es, i, k, hp, h, hn => by
    simp only [IsChain] at h
    have hlt : ∀ p ∈ (j, k') :: r, i < p.1 := by
      intro p hp'
      rw [List.map_cons, List.pairwise_cons] at hp
      exact hp.1 p.1 (List.mem_map_of_mem hp')
    have ih := chain_eq r n (es.set i (.startNode k none)) j k' (by rw [List.map_cons, List.pairwise_cons] at hp; exact hp.2)
      (IsChain.set hlt h.2) (by simp at hn; omega)
    simp only [chain, h.1, ih, cleared, List.map_cons]

theorem cleared_get (es : List Event) : ∀ (l : List (Nat × SyntaxKind)) (j : Nat), (∀ p ∈ l, p.1 ≠ j) → (cleared es l)[j]? = es[j]?
  | [], _, _ => rfl
  | (i, k) :: r, j, h => by
    simp only [cleared]
    rw [cleared_get _ r j fun p hp => h p (by simp [hp]), List.getElem?_set_ne (h (i, k) (by simp))]

theorem emptied_get (es : List Event) : ∀ (l : List (Nat × SyntaxKind)) (j : Nat), (∀ p ∈ l, p.1 ≠ j) → (emptied es l)[j]? = es[j]?
  | [], _, _ => rfl
  | (i, k) :: r, j, h => by
    simp only [emptied]
    rw [emptied_get _ r j fun p hp => h p (by simp [hp]), List.getElem?_set_ne (h (i, k) (by simp))]

theorem cleared_mem : ∀ (l : List (Nat × SyntaxKind)) (es : List Event), (l.map Prod.fst).Pairwise (· < ·) → (∀ p ∈ l, p.1 < es.length) →
    ∀ p ∈ l, (cleared es l)[p.1]? = some (.startNode p.2 none)
  | [], _, _, _, _, h => by simp at h
  | (i, k) :: r, es, hp, hl, p, h => by
    rw [List.map_cons, List.pairwise_cons] at hp
    simp only [cleared]
    rcases List.mem_cons.mp h with rfl | h
    · rw [cleared_get _ r _ fun q hq => by have := hp.1 q.1 (List.mem_map_of_mem hq); simp only at *; omega]
      simp [hl (i, k) (by simp)]
    · exact cleared_mem r _ hp.2 (fun q hq => by simpa using hl q (by simp [hq])) p h

theorem cleared_length (es : List Event) : ∀ (l : List (Nat × SyntaxKind)), (cleared es l).length = es.length
  | [] => rfl
  | (i, k) :: r => by simp [cleared, cleared_length _ r]
  termination_by l => l.length

theorem emptied_length : ∀ (l : List (Nat × SyntaxKind)) (es : List Event), (emptied es l).length = es.length
  | [], _ => rfl
  | (i, k) :: r, es => by simp [emptied, emptied_length r]

theorem emptied_mem : ∀ (l : List (Nat × SyntaxKind)) (es : List Event), (∀ p ∈ l, p.1 < es.length) → ∀ p ∈ l, (emptied es l)[p.1]? = some .placeholder
  | [], _, _, _, h => by simp at h
  | (i, k) :: r, es, hl, p, h => by
    simp only [emptied]
    by_cases hr : ∃ q ∈ r, q.1 = p.1
    · obtain ⟨q, hq, e⟩ := hr
      rw [← e]
      exact emptied_mem r _ (fun q hq => by simpa using hl q (by simp [hq])) q hq
    · rcases List.mem_cons.mp h with rfl | h
      · rw [emptied_get _ r _ fun q hq e => hr ⟨q, hq, e⟩]
        simp [hl (i, k) (by simp)]
      · exact absurd ⟨p, h, rfl⟩ hr

theorem takeOut_eq : ∀ (l : List (Nat × SyntaxKind)) (es : List Event), (l.map Prod.fst).Nodup → (∀ p ∈ l, es[p.1]? = some (.startNode p.2 none)) →
    takeOut es (l.map Prod.fst) = (l.map fun p => Event.startNode p.2 none, emptied es l)
  | [], _, _, _ => rfl
  | (i, k) :: r, es, hn, h => by
    rw [List.map_cons, List.nodup_cons] at hn
    simp only [List.map_cons, takeOut, emptied]
    rw [takeOut_eq r _ hn.2 fun p hp => ?_]
    · simp [h (i, k) (by simp)]
    · have : i ≠ p.1 := fun e => hn.1 (List.mem_map.mpr ⟨p, hp, e.symm⟩)
      rw [List.getElem?_set_ne this]
      exact h p (by simp [hp])

theorem inc_len {N : Nat} : ∀ (l : List Nat) (a : Nat), (∀ x ∈ l, a ≤ x ∧ x < N) → l.Pairwise (· < ·) → a ≤ N → l.length + a ≤ N
  | [], a, _, _, h => by simpa using h
  | x :: l, a, hx, hp, _ => by
    rw [List.pairwise_cons] at hp
    have h1 := hx x (by simp)
    have := inc_len l (x + 1) (fun y hy => ⟨hp.1 y hy, (hx y (by simp [hy])).2⟩) hp.2 (by omega)
    simp only [List.length_cons]; omega

/-- What one round does at the start of a chain. -/
theorem reorderStep_chain {es out : List Event} {i k r} (hp : (((i, k) :: r).map Prod.fst).Pairwise (· < ·)) (hc : IsChain es ((i, k) :: r))
    (hl : ∀ p ∈ (i, k) :: r, p.1 < es.length) :
    reorderStep es out i = (emptied es ((i, k) :: r), out ++ ((i, k) :: r).reverse.map fun p => Event.startNode p.2 none) := by
  have hnd : (((i, k) :: r).map Prod.fst).Nodup := hp.imp (fun h => Nat.ne_of_lt h)
  have hlen : r.length < es.length + 1 := by
    have := inc_len (N := es.length) (((i, k) :: r).map Prod.fst) 0 (fun x hx => by
      obtain ⟨p, hp, rfl⟩ := List.mem_map.mp hx
      exact ⟨Nat.zero_le _, hl p hp⟩) hp (Nat.zero_le _)
    simp at this; omega
  have key : takeOut (chain (es.length + 1) es i).2 (chain (es.length + 1) es i).1.reverse
      = (((i, k) :: r).reverse.map fun p => Event.startNode p.2 none, emptied es ((i, k) :: r)) := by
    rw [chain_eq r _ es i k hp hc hlen]
    simp only
    rw [← List.map_reverse, takeOut_eq _ _ (by rw [List.map_reverse]; exact List.pairwise_reverse.mpr (hnd.imp Ne.symm))]
    · congr 1
      apply List.ext_getElem?
      intro j
      by_cases hj : ∃ p ∈ (i, k) :: r, p.1 = j
      · obtain ⟨p, hpm, rfl⟩ := hj
        rw [emptied_mem _ _ (fun q hq => by rw [cleared_length]; exact hl q (List.mem_reverse.mp hq)) p (List.mem_reverse.mpr hpm), emptied_mem _ _ hl p hpm]
      · rw [emptied_get _ _ _ fun p hp e => hj ⟨p, List.mem_reverse.mp hp, e⟩, emptied_get _ _ _ fun p hp e => hj ⟨p, hp, e⟩,
          cleared_get _ _ _ fun p hp e => hj ⟨p, hp, e⟩]
    · intro p hpm
      exact cleared_mem _ _ hp hl p (List.mem_reverse.mp hpm)
  unfold reorderStep
  cases r with
  | nil =>
    simp only [IsChain] at hc
    simp [hc, emptied]
  | cons q r =>
    obtain ⟨j, k'⟩ := q
    have h1 := hc.1
    simp only [h1]
    rw [key]

/-! ### Chains laid out by `link` -/

theorem link_get (b : Nat) : ∀ (sp : List (Nat × SyntaxKind)) (D : List Event) (L) (j : Nat), (∀ p ∈ sp, p.1 ≠ j) → (link b D sp L)[j]? = D[j]?
  | [], _, _, _, _ => rfl
  | (i, k) :: sp, D, L, j, h => by
    simp only [link]
    rw [link_get b sp _ L j fun p hp => h p (by simp [hp]), List.getElem?_set_ne (h (i, k) (by simp))]

/-- Positions moved by `b`. -/
def shift (b : Nat) (sp : List (Nat × SyntaxKind)) : List (Nat × SyntaxKind) := sp.map fun p => (b + p.1, p.2)

theorem link_chain (b : Nat) : ∀ (sp : List (Nat × SyntaxKind)) (D pre post : List Event), pre.length = b → (sp.map Prod.fst).Pairwise (· < ·) →
    (∀ p ∈ sp, p.1 < D.length) → IsChain (pre ++ link b D sp none ++ post) (shift b sp)
  | [], _, _, _, _, _, _ => trivial
  | [(i, k)], D, pre, post, hb, _, hl => by
    have := hl (i, k) (by simp)
    simp only [shift, List.map_cons, List.map_nil, IsChain, link, nextOf]
    rw [List.append_assoc, List.getElem?_append_right (by omega), List.getElem?_append_left (by simp only [List.length_set]; simp only at this; omega)]
    subst hb
    simp only [Nat.add_sub_cancel_left]
    simp only at this
    simp [this]
  | (i, k) :: (j, k') :: sp, D, pre, post, hb, hp, hl => by
    have := hl (i, k) (by simp)
    rw [List.map_cons, List.pairwise_cons] at hp
    have ih := link_chain b ((j, k') :: sp) (D.set i (.startNode k (some (b + j)))) pre post hb hp.2 (fun p h => by simpa using hl p (by simp [h]))
    refine ⟨?_, ih⟩
    simp only at this
    simp only [link, nextOf]
    rw [List.append_assoc, List.getElem?_append_right (by omega), List.getElem?_append_left (by rw [link_length]; simp; omega)]
    have hne : ∀ p ∈ sp, p.1 ≠ i := fun p h => by
      have := hp.1 p.1 (by simpa using .inr ⟨p.2, h⟩)
      simp only at this; omega
    have hji : j ≠ i := by have := hp.1 j (by simp); simp only at this; omega
    subst hb
    rw [Nat.add_sub_cancel_left, link_get _ _ _ _ _ hne, List.getElem?_set_ne hji]
    simp [this]

theorem mid_get (pre X post : List Event) (j : Nat) :
    (pre ++ X ++ post)[j]? = if j < pre.length then pre[j]? else if j - pre.length < X.length then X[j - pre.length]? else post[j - pre.length - X.length]? := by
  rw [List.append_assoc, List.getElem?_append]
  split
  · rfl
  · rw [List.getElem?_append]

theorem link_emptied {b : Nat} {sp : List (Nat × SyntaxKind)} {D pre post : List Event} (hb : pre.length = b)
    (hph : ∀ p ∈ sp, D[p.1]? = some .placeholder) : emptied (pre ++ link b D sp none ++ post) (shift b sp) = pre ++ D ++ post := by
  have hl : ∀ p ∈ sp, p.1 < D.length := fun p hp => lt_of_get (hph p hp)
  apply List.ext_getElem?
  intro j
  by_cases hj : ∃ p ∈ sp, b + p.1 = j
  · obtain ⟨p, hp, rfl⟩ := hj
    have hm : (b + p.1, p.2) ∈ shift b sp := List.mem_map.mpr ⟨p, hp, rfl⟩
    have := emptied_mem (shift b sp) (pre ++ link b D sp none ++ post) (fun q hq => by
      obtain ⟨q, hq', rfl⟩ := List.mem_map.mp hq
      have := hl q hq'
      simp [link_length]; omega) _ hm
    rw [this, List.append_assoc, List.getElem?_append_right (by omega), List.getElem?_append_left (by have := hl p hp; omega)]
    subst hb
    rw [Nat.add_sub_cancel_left, hph p hp]
  · rw [emptied_get _ _ _ fun q hq e => ?_]
    · rw [mid_get, mid_get, link_length]
      split
      · rfl
      · split
        · rw [link_get]
          intro p hp e
          exact hj ⟨p, hp, by omega⟩
        · rfl
    · obtain ⟨q, hq', rfl⟩ := List.mem_map.mp hq
      exact hj ⟨q, hq', e⟩

/-! ### Reordering a forest -/

/-- The rounds for `n` positions from `b` on empty them and put out `o`. -/
def Does (b : Nat) (D o : List Event) : Prop :=
  ∀ pre post out, pre.length = b → reorderLoop (pre ++ D ++ post) out (List.range' b D.length) = (pre ++ List.replicate D.length .placeholder ++ post, out ++ o)

theorem reorderLoop_append (es out : List Event) (a b : List Nat) :
    reorderLoop es out (a ++ b) = reorderLoop (reorderLoop es out a).1 (reorderLoop es out a).2 b := by
  simp [reorderLoop, List.foldl_append]

theorem Does.append {b D1 o1 D2 o2} (h1 : Does b D1 o1) (h2 : Does (b + D1.length) D2 o2) : Does b (D1 ++ D2) (o1 ++ o2) := by
  intro pre post out hb
  have e : List.range' b (D1 ++ D2).length = List.range' b D1.length ++ List.range' (b + D1.length) D2.length := by
    rw [List.length_append, ← List.range'_append_1]
  rw [e, reorderLoop_append]
  have g1 := h1 pre (D2 ++ post) out hb
  have g2 := h2 (pre ++ List.replicate D1.length .placeholder) post (out ++ o1) (by simp [hb])
  have e1 : pre ++ (D1 ++ D2) ++ post = pre ++ D1 ++ (D2 ++ post) := by simp
  rw [e1, g1]
  simp only
  have e2 : pre ++ List.replicate D1.length Event.placeholder ++ (D2 ++ post) = pre ++ List.replicate D1.length Event.placeholder ++ D2 ++ post := by simp
  rw [e2, g2]
  simp [List.append_assoc]

theorem Does.nil (b) : Does b [] [] := by
  intro pre post out _
  simp [reorderLoop]

theorem get_mid {pre D post : List Event} {b : Nat} (hb : pre.length = b) (h : D ≠ []) : (pre ++ D ++ post)[b]? = D.head? := by
  cases D with
  | nil => exact absurd rfl h
  | cons e D => rw [List.append_assoc, List.getElem?_append_right (by omega)]; simp [hb]

theorem Does.ph (b) : Does b [.placeholder] [] := by
  intro pre post out hb
  have hg : (pre ++ [.placeholder] ++ post)[b]? = some Event.placeholder := by rw [get_mid hb (by simp)]; rfl
  simp only [reorderLoop, List.length_cons, List.length_nil, List.range', List.foldl_cons, List.foldl_nil, reorderStep, hg]
  simp

theorem Does.one {b e} (h : e ≠ .placeholder) (h' : ∀ k j, e ≠ .startNode k (some j)) : Does b [e] [e] := by
  intro pre post out hb
  have hg : (pre ++ [e] ++ post)[b]? = some e := by rw [get_mid hb (by simp)]; rfl
  simp only [reorderLoop, List.length_cons, List.length_nil, List.range', List.foldl_cons, List.foldl_nil]
  have hset : (pre ++ [e] ++ post).set b .placeholder = pre ++ List.replicate 1 .placeholder ++ post := by
    subst hb
    simp
  unfold reorderStep
  rw [hg]
  cases e with
  | startNode k f =>
    cases f with
    | none => simp only; rw [hset]
    | some j => exact absurd rfl (h' k j)
  | placeholder => exact absurd rfl h
  | _ => simp only; rw [hset]

mutual
theorem Tree.does : ∀ {b D sp out t}, Tree b D sp out t → Does b D out
  | b, _, _, _, _, .one (D := D) h => by
    have := ((Does.ph b).append (h.does)).append (Does.one (b := b + ([Event.placeholder] ++ D).length) (e := .finishNode) (by simp) (by simp))
    simpa using this
  | b, _, _, _, _, .wrap (D := D) (D1 := D1) (D2 := D2) h h1 h2 => by
    have a1 := h.does.append h1.does
    have a2 := a1.append (Does.ph _)
    have a3 := a2.append (D2 := D2) (by simpa [Nat.add_assoc] using h2.does)
    have a4 := a3.append (Does.one (b := b + (D ++ D1 ++ [Event.placeholder] ++ D2).length) (e := .finishNode) (by simp) (by simp))
    simpa using a4
theorem Forest.does : ∀ {b D ts}, Forest b D ts → Does b D (Syn.flat.go ts)
  | _, _, _, .nil => Does.nil _
  | b, _, _, .tok (D := D) (k := k) h => by
    have := h.does.append (Does.one (b := b + D.length) (e := .addToken k) (by simp) (by simp))
    simpa [flat_go_append, Syn.flat.go, Syn.flat] using this
  | b, _, _, .tree (D := D) (D' := D') (sp := sp) (out := o) (t := t) h ht => by
    have h2 := ht.does
    have sp' := ht.spine
    refine h.does.append ?_ |> fun a => by simpa [flat_go_append, Syn.flat.go] using a
    intro pre post out hb
    have hl : ∀ p ∈ sp, p.1 < D'.length := fun p hp => lt_of_get (sp'.ph p hp)
    obtain ⟨k0, r, e⟩ := sp'.hd
    have hne : D' ≠ [] := by
      intro e'
      have := hl (0, k0) (by simp [e])
      simp [e'] at this
    have hsh : shift (b + D.length) sp = (b + D.length, k0) :: shift (b + D.length) r := by rw [e]; rfl
    have hinc : ((shift (b + D.length) sp).map Prod.fst).Pairwise (· < ·) := by
      simp only [shift, List.map_map]
      rw [List.pairwise_map]
      have := sp'.inc
      rw [List.pairwise_map] at this
      exact this.imp fun h => by simp only [Function.comp]; omega
    have hch := link_chain (b + D.length) sp D' pre post hb sp'.inc hl
    have hlt : ∀ p ∈ shift (b + D.length) sp, p.1 < (pre ++ link (b + D.length) D' sp none ++ post).length := by
      intro q hq
      obtain ⟨q, hq', rfl⟩ := List.mem_map.mp hq
      have := hl q hq'
      simp [link_length]; omega
    rw [hsh] at hch hinc hlt
    have step := reorderStep_chain (out := out) hinc hch hlt
    rw [← hsh, link_emptied hb sp'.ph] at step
    have hD : (link (b + D.length) D' sp none).length = D'.length := link_length ..
    rw [hD]
    obtain ⟨n, hn⟩ : ∃ n, D'.length = n + 1 := ⟨D'.length - 1, by have := List.length_pos_iff.mpr hne; omega⟩
    rw [hn, List.range'_succ]
    have hout : out ++ t.flat = (out ++ (shift (b + D.length) sp).reverse.map fun p => Event.startNode p.2 none) ++ o := by
      rw [sp'.flat, ← List.append_assoc]
      congr 2
      simp only [shift, ← List.map_reverse, List.map_map]
      rfl
    have h3 := h2 pre post (out ++ (shift (b + D.length) sp).reverse.map fun p => Event.startNode p.2 none) hb
    rw [← hout, hn, List.range'_succ] at h3
    rw [← h3]
    simp only [reorderLoop, List.foldl_cons, step]
    have noop : reorderStep (pre ++ D' ++ post) (out ++ (shift (b + D.length) sp).reverse.map fun p => Event.startNode p.2 none) (b + D.length)
        = (pre ++ D' ++ post, out ++ (shift (b + D.length) sp).reverse.map fun p => Event.startNode p.2 none) := by
      have hg : (pre ++ D' ++ post)[b + D.length]? = some .placeholder := by
        rw [get_mid hb hne, List.head?_eq_getElem?]
        exact sp'.ph (0, k0) (by simp [e])
      simp only [reorderStep, hg]
    rw [noop]
end

mutual
theorem Tree.length : ∀ {b D sp out t}, Tree b D sp out t → D.length = out.length + sp.length
  | b, _, _, _, _, .one h => by
    have := h.length
    simp; omega
  | b, _, _, _, _, .wrap h h1 h2 => by
    have := h.length
    have := h1.length
    have := h2.length
    simp; omega
theorem Forest.length : ∀ {b D ts}, Forest b D ts → D.length = (Syn.flat.go ts).length
  | _, _, _, .nil => rfl
  | b, _, _, .tok h => by
    have := h.length
    simp [flat_go_append, Syn.flat.go, Syn.flat]; omega
  | b, _, _, .tree h ht => by
    have := h.length
    have := ht.length
    have := ht.spine.flat
    simp [flat_go_append, Syn.flat.go, link_length, this]; omega
end

/-- Reordering the events of trees gives them in order. -/
theorem Forest.reorder {D ts} (h : Forest 0 D ts) : reorder D = some (Syn.flat.go ts) := by
  have h1 := h.does [] [] [] rfl
  simp only [List.nil_append, List.append_nil] at h1
  have hlen : D.length = (Syn.flat.go ts).length := by
    exact h.length
  unfold Tic.Parser.reorder
  rw [List.range_eq_range', h1]
  rw [if_pos hlen]

end Tic.Grammar
