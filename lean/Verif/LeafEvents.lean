/-
Nodes that consist of one token: the parser's events for them.
-/
import Verif.GrammarMono

namespace Tic.Lower

open Tic.Parser
open Tic.Grammar

/-- Which tokens a node of a kind may consist of.  A kind with none is a kind of composite nodes. -/
def wraps : SyntaxKind → TokenKind → Bool
  | .name, t => t == .ident
  | .intType, t => t == .int
  | .boolType, t => t == .bool
  | .stringType, t => t == .stringTy
  | .boolExpr, t => t == .true_ || t == .false_
  | .numberExpr, t => t == .number
  | .stringExpr, t => t == .string
  | .holeExpr, t => t == .hole
  | .binaryOp, t => (bindingPower t).isSome
  | _, _ => false

/-- The kinds of nodes that consist of one token. -/
def single : SyntaxKind → Bool
  | .name | .intType | .boolType | .stringType | .boolExpr | .numberExpr | .stringExpr | .holeExpr | .binaryOp => true
  | _ => false

/-- In the events, a node of one token is followed by its token and its end; and it is not the parent of an earlier node. -/
structure Single (es : List Event) : Prop where
  leaf : ∀ (i : Nat) k f, es[i]? = some (Event.startNode k f) → single k = true →
    ∃ t, es[i + 1]? = some (Event.addToken t) ∧ wraps k t = true ∧ es[i + 2]? = some Event.finishNode
  link : ∀ (i : Nat) k p, es[i]? = some (Event.startNode k (some p)) → p < es.length ∧ ∀ k' f, es[p]? = some (Event.startNode k' f) → single k' = false

theorem Single.append {es D} (h : Single es) (hD : ∀ e ∈ D, ∀ k f, e ≠ Event.startNode k f) : Single (es ++ D) := by
  have get : ∀ (i : Nat) k f, (es ++ D)[i]? = some (Event.startNode k f) → es[i]? = some (Event.startNode k f) := by
    intro i k f hi
    rw [List.getElem?_append] at hi
    split at hi
    · exact hi
    · exact absurd rfl (hD _ (List.mem_of_getElem? hi) k f)
  have up : ∀ (i : Nat) e, es[i]? = some e → (es ++ D)[i]? = some e := by
    intro i e hi
    rw [List.getElem?_append_left (lt_of_get hi)]; exact hi
  refine ⟨fun i k f hi hs => ?_, fun i k p hi => ?_⟩
  · obtain ⟨t, h1, h2, h3⟩ := h.leaf i k f (get _ _ _ hi) hs
    exact ⟨t, up _ _ h1, h2, up _ _ h3⟩
  · obtain ⟨h1, h2⟩ := h.link i k p (get _ _ _ hi)
    exact ⟨by simp; omega, fun k' f hp => h2 k' f (get _ _ _ hp)⟩

/-- Making a node at an open marker. -/
theorem Single.set {es} {m : Nat} {k} (h : Single es) (hm : es[m]? = some .placeholder) (hk : single k = false) : Single (es.set m (.startNode k none)) := by
  have hlt := lt_of_get hm
  have get : ∀ (i : Nat) e, es[i]? = some e → e ≠ .placeholder → (es.set m (.startNode k none))[i]? = some e := by
    intro i e hi he
    have : i ≠ m := by rintro rfl; rw [hm] at hi; exact he (Option.some.inj hi).symm
    rw [List.getElem?_set_ne (Ne.symm this)]; exact hi
  refine ⟨fun i k' f hi hs => ?_, fun i k' p hi => ?_⟩
  · by_cases e : i = m
    · subst e
      rw [List.getElem?_set_self hlt] at hi
      simp only [Option.some.injEq, Event.startNode.injEq] at hi
      rw [← hi.1, hk] at hs; cases hs
    · rw [List.getElem?_set_ne (Ne.symm e)] at hi
      obtain ⟨t, h1, h2, h3⟩ := h.leaf i k' f hi hs
      exact ⟨t, get _ _ h1 (by simp), h2, get _ _ h3 (by simp)⟩
  · by_cases e : i = m
    · subst e
      rw [List.getElem?_set_self hlt] at hi
      simp at hi
    · rw [List.getElem?_set_ne (Ne.symm e)] at hi
      obtain ⟨h1, h2⟩ := h.link i k' p hi
      refine ⟨by simpa using h1, fun k'' f hp => ?_⟩
      by_cases e : p = m
      · subst e
        rw [List.getElem?_set_self hlt] at hp
        simp only [Option.some.injEq, Event.startNode.injEq] at hp
        rw [← hp.1]; exact hk
      · rw [List.getElem?_set_ne (Ne.symm e)] at hp
        exact h2 k'' f hp

/-- Setting a parent. -/
theorem Single.parent {es} {m p : Nat} {k} (h : Single es) (hm : es[m]? = some (.startNode k none)) (hp : es[p]? = some .placeholder) :
    Single (es.set m (.startNode k (some p))) := by
  have hlt := lt_of_get hm
  have get : ∀ (i : Nat) e, es[i]? = some e → (∀ k f, e ≠ .startNode k f) → (es.set m (.startNode k (some p)))[i]? = some e := by
    intro i e hi he
    have : i ≠ m := by rintro rfl; rw [hm] at hi; exact he k none (Option.some.inj hi).symm
    rw [List.getElem?_set_ne (Ne.symm this)]; exact hi
  have low : ∀ (i : Nat) k' f, (es.set m (.startNode k (some p)))[i]? = some (Event.startNode k' f) → ∃ f', es[i]? = some (Event.startNode k' f') := by
    intro i k' f hi
    by_cases e : i = m
    · subst e
      rw [List.getElem?_set_self hlt] at hi
      simp only [Option.some.injEq, Event.startNode.injEq] at hi
      exact ⟨none, by rw [hm, hi.1]⟩
    · rw [List.getElem?_set_ne (Ne.symm e)] at hi; exact ⟨f, hi⟩
  refine ⟨fun i k' f hi hs => ?_, fun i k' q hi => ?_⟩
  · obtain ⟨f', hi'⟩ := low i k' f hi
    obtain ⟨t, h1, h2, h3⟩ := h.leaf i k' f' hi' hs
    exact ⟨t, get _ _ h1 (by simp), h2, get _ _ h3 (by simp)⟩
  · by_cases e : i = m
    · subst e
      rw [List.getElem?_set_self hlt] at hi
      simp only [Option.some.injEq, Event.startNode.injEq] at hi
      obtain ⟨-, rfl⟩ := hi
      refine ⟨by have := lt_of_get hp; simpa using this, fun k'' f hq => ?_⟩
      rw [get _ _ hp (by simp)] at hq
      simp at hq
    · rw [List.getElem?_set_ne (Ne.symm e)] at hi
      obtain ⟨h1, h2⟩ := h.link i k' q hi
      refine ⟨by simpa using h1, fun k'' f hq => ?_⟩
      obtain ⟨f', hq'⟩ := low q k'' f hq
      exact h2 k'' f' hq'

/-- The whole of a node of one token. -/
theorem Single.node {es k t} (h : Single es) (ht : wraps k t = true) : Single (es ++ [.startNode k none, .addToken t, .finishNode]) := by
  have up : ∀ (i : Nat) e, es[i]? = some e → (es ++ [.startNode k none, .addToken t, .finishNode])[i]? = some e := by
    intro i e hi
    rw [List.getElem?_append_left (lt_of_get hi)]; exact hi
  have cases3 : ∀ (i : Nat) k' f, (es ++ [.startNode k none, .addToken t, .finishNode])[i]? = some (Event.startNode k' f) →
      es[i]? = some (Event.startNode k' f) ∨ (i = es.length ∧ k' = k ∧ f = none) := by
    intro i k' f hi
    rw [List.getElem?_append] at hi
    split at hi
    · exact .inl hi
    · obtain ⟨j, hj⟩ : ∃ j, i = es.length + j := ⟨i - es.length, by omega⟩
      subst hj
      rw [Nat.add_sub_cancel_left] at hi
      match j, hi with
      | 0, hi => simp at hi; exact .inr ⟨by simp, hi.1.symm, hi.2.symm⟩
      | 1, hi => simp at hi
      | 2, hi => simp at hi
      | j + 3, hi => simp at hi
  refine ⟨fun i k' f hi hs => ?_, fun i k' p hi => ?_⟩
  · rcases cases3 i k' f hi with hi | ⟨rfl, rfl, rfl⟩
    · obtain ⟨t, h1, h2, h3⟩ := h.leaf i k' f hi hs
      exact ⟨t, up _ _ h1, h2, up _ _ h3⟩
    · exact ⟨t, by simp, ht, by simp⟩
  · rcases cases3 i k' _ hi with hi | ⟨-, -, h⟩
    · obtain ⟨h1, h2⟩ := h.link i k' p hi
      refine ⟨by simp; omega, fun k'' f hp => ?_⟩
      rcases cases3 p k'' f hp with hp | ⟨rfl, -, -⟩
      · exact h2 k'' f hp
      · omega
    · cases h

/-- The action keeps the invariant when the next token satisfies the condition. -/
structure KeepIf {α : Type} (c : Option TokenKind → Prop) (p : P α) : Prop where
  run : ∀ s r s', c (kinds s).head? → p s = some (r, s') → Single s.events → Single s'.events

/-- The action keeps the invariant. -/
abbrev Keep {α : Type} (p : P α) : Prop := KeepIf (fun _ => True) p

theorem Keep.any {α : Type} {p : P α} (h : Keep p) (c) : KeepIf c p := ⟨fun s r s' _ => h.run s r s' trivial⟩

theorem keep_pure {α : Type} (a : α) : Keep (pure a : P α) := ⟨fun s r s' _ h c => by
  simp only [pure, StateT.pure, Option.some.injEq, Prod.mk.injEq] at h
  rw [← h.2]; exact c⟩

theorem keep_bind {α β : Type} {p : P α} {f : α → P β} (hp : Keep p) (hf : ∀ a, Keep (f a)) : Keep (p >>= f) := ⟨fun s r s' _ h c => by
  rw [bind_eq, Option.bind_eq_some_iff] at h
  obtain ⟨⟨a, s1⟩, h1, h2⟩ := h
  exact (hf a).run _ _ _ trivial h2 (hp.run _ _ _ trivial h1 c)⟩

theorem keep_panic {α : Type} : Keep (panic : P α) := ⟨fun _ _ _ _ h => nomatch h⟩

theorem keep_ite {α : Type} {c : Prop} [Decidable c] {A B : P α} (hA : Keep A) (hB : Keep B) : Keep (if c then A else B) := by
  split
  · exact hA
  · exact hB

theorem keep_app {α : Type} {p : P α} (h : ∀ s r s', p s = some (r, s') → ∃ D, s'.events = s.events ++ D ∧ ∀ e ∈ D, ∀ k f, e ≠ Event.startNode k f) : Keep p :=
  ⟨fun s r s' _ e c => by obtain ⟨D, hD, hs⟩ := h s r s' e; rw [hD]; exact c.append hs⟩

theorem keep_same {α : Type} {p : P α} (h : ∀ s r s', p s = some (r, s') → s'.events = s.events) : Keep p :=
  ⟨fun s r s' _ e c => by rw [h s r s' e]; exact c⟩

theorem keep_hint (h) : Keep (hint h) := keep_same fun s r s' e => by
  simp only [hint, Option.some.injEq, Prod.mk.injEq] at e; rw [← e.2]

theorem keep_peek : Keep peek := keep_same fun s r s' e => by
  obtain ⟨s1, h1, h2, -⟩ := peek_eq s
  rw [h1] at e
  simp only [Option.some.injEq, Prod.mk.injEq] at e
  rw [← e.2]; exact h2.2

/-- Looking at the next token. -/
theorem keep_peek_then {β : Type} {f : Option TokenKind → P β} (hf : ∀ o, KeepIf (· = o) (f o)) : Keep (peek >>= f) := ⟨fun s r s' _ h c => by
  obtain ⟨s1, h1, h2, -⟩ := peek_eq s
  rw [bind_eq, h1, Option.bind_some] at h
  refine (hf _).run _ _ _ ?_ h (by rw [h2.2]; exact c)
  rw [h2.1]⟩

theorem keep_at (t) : Keep (at_ t) := keep_same fun s r s' e => by
  obtain ⟨s1, h1, h2, -⟩ := at_eq t s
  rw [h1] at e
  simp only [Option.some.injEq, Prod.mk.injEq] at e
  rw [← e.2]; exact h2.2

/-- Testing the next token. -/
theorem keep_if_at {β : Type} {t} {A B : P β} (hA : KeepIf (· = some t) A) (hB : Keep B) : Keep (at_ t >>= fun b => if b = true then A else B) := ⟨fun s r s' _ h c => by
  obtain ⟨s1, h1, h2, -⟩ := at_eq t s
  rw [bind_eq, h1, Option.bind_some] at h
  simp only at h
  split at h
  · rename_i he
    exact hA.run _ _ _ (by rw [h2.1]; exact eq_of_beq he) h (by rw [h2.2]; exact c)
  · exact hB.run _ _ _ trivial h (by rw [h2.2]; exact c)⟩

theorem keep_get : Keep (get : P PState) := keep_same fun s r s' e => by
  have : (some (s, s) : Option (PState × PState)) = some (r, s') := e
  simp only [Option.some.injEq, Prod.mk.injEq] at this
  rw [this.2]

theorem keep_modify {f : PState → PState} (h : ∀ s, ∃ D, (f s).events = s.events ++ D ∧ ∀ e ∈ D, ∀ k f, e ≠ Event.startNode k f) : Keep (modify f : P PUnit) :=
  keep_app fun s r s' e => by
    have : (some (PUnit.unit, f s) : Option (PUnit × PState)) = some (r, s') := e
    simp only [Option.some.injEq, Prod.mk.injEq] at this
    rw [← this.2]; exact h s

theorem keep_atEof : Keep atEof := keep_bind keep_peek fun _ => keep_pure _

/-- What `bumpAny` adds. -/
theorem bumpAny_adds {s : PState} {r s'} (h : bumpAny s = some (r, s')) : ∃ k, (kinds s).head? = some k ∧ s'.events = s.events ++ [.addToken k] := by
  cases hk : kinds s with
  | nil =>
    obtain ⟨s1, h1, h2, -⟩ := peek_eq s
    have he : atEof s = some (true, s1) := by unfold atEof; rw [bind_eq, h1, hk]; rfl
    unfold bumpAny at h
    rw [bind_eq, he] at h
    cases h
  | cons k rest =>
    obtain ⟨s1, h1, -, h3⟩ := bumpAny_eq hk
    rw [h] at h1
    cases h1
    exact ⟨k, rfl, h3⟩

theorem keep_bumpAny : Keep bumpAny := keep_app fun s r s' e => by
  obtain ⟨k, -, h⟩ := bumpAny_adds e
  exact ⟨_, h, by simp⟩

/-- What `bump` adds. -/
theorem bump_adds {t} {s : PState} {r s'} (h : bump t s = some (r, s')) : (kinds s).head? = some t ∧ s'.events = s.events ++ [.addToken t] := by
  obtain ⟨s1, h1, h2, -⟩ := at_eq t s
  unfold bump at h
  rw [bind_eq, h1, Option.bind_some] at h
  simp only at h
  split at h
  · rename_i he
    obtain ⟨k, e1, e2⟩ := bumpAny_adds h
    have : (kinds s).head? = some t := eq_of_beq he
    rw [h2.1, this] at e1
    cases e1
    exact ⟨this, by rw [e2, h2.2]⟩
  · cases h

theorem keep_bump (t) : Keep (bump t) := keep_app fun s r s' e => ⟨_, (bump_adds e).2, by simp⟩

theorem keep_start : Keep start := keep_app fun s r s' e => by
  simp only [start, Option.some.injEq, Prod.mk.injEq] at e
  exact ⟨_, by rw [← e.2], by simp⟩

theorem keep_complete (m k) (hk : single k = false) : Keep (complete m k) := ⟨fun s r s' _ e c => by
  unfold complete at e
  split at e
  · rename_i hg
    simp only [Option.some.injEq, Prod.mk.injEq] at e
    rw [← e.2]
    exact (c.set hg hk).append (by simp)
  · cases e⟩

theorem keep_precede (m) : Keep (precede m) := ⟨fun s r s' _ e c => by
  unfold precede at e
  rw [bind_eq] at e
  simp only [start, Option.bind_some] at e
  split at e
  · rename_i k hg
    simp only [Option.some.injEq, Prod.mk.injEq] at e
    rw [← e.2]
    exact (c.append (D := [.placeholder]) (by simp)).parent hg (by simp)
  · cases e⟩

/-- A node of one token. -/
theorem keep_single {β : Type} {k t} {f : Nat → P β} (ht : wraps k t = true) (hf : ∀ m, Keep (f m)) :
    Keep (start >>= fun m => bump t >>= fun _ => complete m k >>= f) := ⟨fun s r s' _ h c => by
  rw [bind_eq] at h
  simp only [start, Option.bind_some] at h
  rw [bind_eq, Option.bind_eq_some_iff] at h
  obtain ⟨⟨a, s1⟩, h1, h2⟩ := h
  obtain ⟨-, e1⟩ := bump_adds h1
  simp only at e1 h2
  rw [bind_eq, Option.bind_eq_some_iff] at h2
  obtain ⟨⟨b, s2⟩, h3, h4⟩ := h2
  refine (hf _).run _ _ _ trivial h4 ?_
  unfold complete at h3
  rw [e1] at h3
  simp at h3
  rw [← h3.2]
  exact c.node ht⟩

/-- A node of the next token. -/
theorem keep_singleAny {β : Type} {k} {c : Option TokenKind → Prop} {f : Nat → P β} (ht : ∀ t, c (some t) → wraps k t = true) (hf : ∀ m, Keep (f m)) :
    KeepIf c (start >>= fun m => bumpAny >>= fun _ => complete m k >>= f) := ⟨fun s r s' hc h cl => by
  rw [bind_eq] at h
  simp only [start, Option.bind_some] at h
  rw [bind_eq, Option.bind_eq_some_iff] at h
  obtain ⟨⟨a, s1⟩, h1, h2⟩ := h
  obtain ⟨t, e0, e1⟩ := bumpAny_adds h1
  simp only at e1 h2
  rw [bind_eq, Option.bind_eq_some_iff] at h2
  obtain ⟨⟨b, s2⟩, h3, h4⟩ := h2
  refine (hf _).run _ _ _ trivial h4 ?_
  unfold complete at h3
  rw [e1] at h3
  simp at h3
  rw [← h3.2]
  refine cl.node (ht t ?_)
  have : (kinds s).head? = some t := e0
  rw [← this]; exact hc⟩

theorem keep_loop {σ β : Type} {body : σ → P (σ ⊕ β)} (h : ∀ a, Keep (body a)) : ∀ n a, Keep (loopM body n a)
  | 0, _ => keep_panic
  | n + 1, a => by
    unfold loopM
    refine keep_bind (h a) fun r => ?_
    cases r with
    | inl a => exact keep_loop h n a
    | inr b => exact keep_pure b

theorem keep_bumpName : Keep bumpName := keep_single rfl fun _ => keep_pure _

end Tic.Lower
