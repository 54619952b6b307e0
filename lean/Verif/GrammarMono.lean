/-
Errors are never taken back: an action that ends without an error recorded started without one.
-/
import Verif.GrammarFwd

namespace Tic.Grammar

open Tic.Parser

/-- No error is recorded. -/
structure Clean (s : PState) : Prop where
  no : ∀ (i : Nat) a b, s.events[i]? ≠ some (Event.error a b)

/-- The action does not take errors back. -/
structure Mono {α : Type} (p : P α) : Prop where
  run : ∀ s r s', p s = some (r, s') → Clean s' → Clean s

theorem Clean.of_eq {s s' : PState} (h : s'.events = s.events) (c : Clean s') : Clean s := ⟨by rw [← h]; exact c.no⟩

theorem Clean.of_append {s s' : PState} {D} (h : s'.events = s.events ++ D) (c : Clean s') : Clean s := by
  refine ⟨fun i a b e => c.no i a b ?_⟩
  rw [h, List.getElem?_append_left (by exact (List.getElem?_eq_some_iff.mp e).1)]
  exact e

theorem mono_pure {α : Type} (a : α) : Mono (pure a : P α) := ⟨fun s r s' h c => by
  simp only [pure, StateT.pure, Option.some.injEq, Prod.mk.injEq] at h
  rw [h.2]; exact c⟩

theorem mono_bind {α β : Type} {p : P α} {f : α → P β} (hp : Mono p) (hf : ∀ a, Mono (f a)) : Mono (p >>= f) := ⟨fun s r s' h c => by
  rw [bind_eq, Option.bind_eq_some_iff] at h
  obtain ⟨⟨a, s1⟩, h1, h2⟩ := h
  exact hp.run _ _ _ h1 ((hf a).run _ _ _ h2 c)⟩

theorem mono_panic {α : Type} : Mono (panic : P α) := ⟨fun _ _ _ h => nomatch h⟩

theorem mono_ite {α : Type} {c : Prop} [Decidable c] {A B : P α} (hA : Mono A) (hB : Mono B) : Mono (if c then A else B) := by
  split
  · exact hA
  · exact hB

theorem mono_same {α : Type} {p : P α} (h : ∀ s r s', p s = some (r, s') → s'.events = s.events) : Mono p :=
  ⟨fun s r s' e c => c.of_eq (h s r s' e)⟩

theorem mono_app {α : Type} {p : P α} (h : ∀ s r s', p s = some (r, s') → ∃ D, s'.events = s.events ++ D) : Mono p :=
  ⟨fun s r s' e c => by obtain ⟨D, hD⟩ := h s r s' e; exact c.of_append hD⟩

theorem mono_hint (h) : Mono (hint h) := mono_same fun s r s' e => by
  simp only [hint, Option.some.injEq, Prod.mk.injEq] at e; rw [← e.2]

theorem mono_peek : Mono peek := mono_same fun s r s' e => by
  obtain ⟨s1, h1, h2, -⟩ := peek_eq s
  rw [h1] at e
  simp only [Option.some.injEq, Prod.mk.injEq] at e
  rw [← e.2]; exact h2.2

theorem mono_at (t) : Mono (at_ t) := mono_same fun s r s' e => by
  obtain ⟨s1, h1, h2, -⟩ := at_eq t s
  rw [h1] at e
  simp only [Option.some.injEq, Prod.mk.injEq] at e
  rw [← e.2]; exact h2.2

theorem mono_get : Mono (get : P PState) := mono_same fun s r s' e => by
  have : (some (s, s) : Option (PState × PState)) = some (r, s') := e
  simp only [Option.some.injEq, Prod.mk.injEq] at this
  rw [this.2]

theorem mono_modify {f : PState → PState} (h : ∀ s, (f s).events = s.events ∨ ∃ D, (f s).events = s.events ++ D) : Mono (modify f : P PUnit) :=
  ⟨fun s r s' e c => by
    have : (some (PUnit.unit, f s) : Option (PUnit × PState)) = some (r, s') := e
    simp only [Option.some.injEq, Prod.mk.injEq] at this
    rcases h s with h | ⟨D, h⟩
    · exact c.of_eq (by rw [← this.2, h])
    · exact c.of_append (D := D) (by rw [← this.2, h])⟩

theorem mono_atEof : Mono atEof := mono_bind mono_peek fun _ => mono_pure _

theorem mono_bumpAny : Mono bumpAny := by
  unfold bumpAny
  refine mono_bind mono_atEof fun b => ?_
  have key : Mono (fun s : PState =>
    match s.toks with
    | { kind := .token k, text } :: ts =>
      some ((), ({ sol := false, toks := ts, off := s.off + text.length, pos := s.off + text.length, events := s.events ++ [.addToken k], hints := [], expected := [] } : PState))
    | _ => none : P Unit) := by
    refine mono_app fun s r s' e => ?_
    split at e
    · simp only [Option.some.injEq, Prod.mk.injEq] at e
      exact ⟨_, by rw [← e.2]⟩
    · cases e
  exact mono_ite (mono_bind mono_panic fun _ => key) key

theorem mono_bump (t) : Mono (bump t) := mono_bind (mono_at t) fun _ => mono_ite mono_bumpAny mono_panic

theorem mono_start : Mono start := mono_app fun s r s' e => by
  simp only [start, Option.some.injEq, Prod.mk.injEq] at e
  exact ⟨_, by rw [← e.2]⟩

theorem clean_set {es es' : List Event} {m e e'} (h : es[m]? = some e) (he : ∀ a b, e ≠ Event.error a b) (h' : ∀ (i : Nat) a b, (es.set m e' ++ es')[i]? ≠ some (Event.error a b)) :
    ∀ (i : Nat) a b, es[i]? ≠ some (Event.error a b) := by
  intro i a b hi
  have hlt := (List.getElem?_eq_some_iff.mp hi).1
  by_cases hm : i = m
  · subst hm; rw [h] at hi; exact he a b (Option.some.inj hi)
  · refine h' i a b ?_
    rw [List.getElem?_append_left (by simpa using hlt), List.getElem?_set_ne (fun h => hm h.symm)]
    exact hi

theorem mono_complete (m k) : Mono (complete m k) := ⟨fun s r s' e c => by
  unfold complete at e
  split at e
  · rename_i hg
    simp only [Option.some.injEq, Prod.mk.injEq] at e
    refine ⟨clean_set (es' := [.finishNode]) (e' := .startNode k none) hg (by simp) ?_⟩
    rw [← e.2] at c; exact c.no
  · cases e⟩

theorem mono_precede (m) : Mono (precede m) := by
  refine mono_bind mono_start fun p => ⟨fun s r s' e c => ?_⟩
  split at e
  · rename_i k hg
    simp only [Option.some.injEq, Prod.mk.injEq] at e
    refine ⟨clean_set (es' := []) (e' := .startNode k (some p)) hg (by simp) ?_⟩
    rw [← e.2] at c; simpa using c.no
  · cases e

theorem mono_loop {σ β : Type} {body : σ → P (σ ⊕ β)} (h : ∀ a, Mono (body a)) : ∀ n a, Mono (loopM body n a)
  | 0, _ => mono_panic
  | n + 1, a => by
    unfold loopM
    refine mono_bind (h a) fun r => ?_
    cases r with
    | inl a => exact mono_loop h n a
    | inr b => exact mono_pure b

theorem mono_bumpName : Mono bumpName := mono_bind mono_start fun _ => mono_bind (mono_bump _) fun _ => mono_bind (mono_complete _ _) fun _ => mono_pure _

/-- The proofs follow the code. -/
macro "mono" : tactic => `(tactic| repeat' first
  | with_reducible assumption
  | with_reducible exact mono_pure _
  | with_reducible exact mono_panic
  | with_reducible exact mono_hint _
  | with_reducible exact mono_at _
  | with_reducible exact mono_peek
  | with_reducible exact mono_get
  | with_reducible exact mono_bump _
  | with_reducible exact mono_bumpAny
  | with_reducible exact mono_bumpName
  | with_reducible exact mono_start
  | with_reducible exact mono_complete _ _
  | with_reducible exact mono_precede _
  | with_reducible refine mono_bind ?_ (fun _ => ?_)
  | with_reducible refine mono_ite ?_ ?_
  | with_reducible refine mono_loop (fun _ => ?_) _ _
  | split
  | simp only [])

theorem mono_while {n : Nat} {cond : P Bool} {body : P Unit} (h : Mono cond) (h' : Mono body) : Mono (whileM n cond body) := by
  unfold whileM; mono

theorem mono_emitError : Mono emitError := by
  unfold emitError
  refine mono_bind mono_peek fun _ => ?_
  simp only []
  have hm : ∀ f : PState → PState, (∀ s, (f s).events = s.events ∨ ∃ D, (f s).events = s.events ++ D) → Mono (modify f : P PUnit) := fun f => mono_modify
  have tail : Mono (do
      let _ ← peek
      modify fun s =>
        let span := match s.toks with
          | t :: _ => (s.off, s.off + t.text.length)
          | [] => (s.pos, s.pos)
        { s with events := s.events ++ [.error span.1 span.2] }
      if ← at_ .error then bump .error : P Unit) := by
    refine mono_bind mono_peek fun _ => mono_bind (hm _ fun s => .inr ⟨_, rfl⟩) fun _ => ?_
    mono
  refine mono_ite tail ?_
  refine mono_bind (hm _ fun s => .inl rfl) fun _ => mono_bind mono_get fun _ => ?_
  exact mono_ite (mono_bind mono_panic fun _ => tail) (tail)

theorem mono_expect (t) : Mono (expect t) := by
  unfold expect
  exact mono_bind (mono_at _) fun _ => mono_ite (mono_bump _) mono_emitError

theorem mono_expectName : Mono expectName := by
  unfold expectName
  exact mono_bind (mono_at _) fun _ => mono_ite mono_bumpName mono_emitError

theorem mono_errorRecover (h) : Mono (errorRecover h) := by
  unfold errorRecover
  refine mono_bind mono_emitError fun _ => ?_
  mono

theorem mono_errorRecoverItem (n) : Mono (errorRecoverItem n) := by
  unfold errorRecoverItem
  refine mono_bind mono_emitError fun _ => ?_
  mono

macro_rules | `(tactic| mono) => `(tactic| repeat' first
  | with_reducible assumption
  | with_reducible exact mono_pure _
  | with_reducible exact mono_panic
  | with_reducible exact mono_hint _
  | with_reducible exact mono_at _
  | with_reducible exact mono_peek
  | with_reducible exact mono_get
  | with_reducible exact mono_bump _
  | with_reducible exact mono_bumpAny
  | with_reducible exact mono_bumpName
  | with_reducible exact mono_start
  | with_reducible exact mono_complete _ _
  | with_reducible exact mono_precede _
  | with_reducible exact mono_expect _
  | with_reducible exact mono_expectName
  | with_reducible exact mono_emitError
  | with_reducible exact mono_errorRecover _
  | with_reducible exact mono_errorRecoverItem _
  | with_reducible refine mono_while ?_ ?_
  | with_reducible refine mono_bind ?_ (fun _ => ?_)
  | with_reducible refine mono_ite ?_ ?_
  | with_reducible refine mono_loop (fun _ => ?_) _ _
  | split
  | simp only [])

theorem mono_types : ∀ n, Mono (type_ n) ∧ Mono (nonFnType n) ∧ Mono (atomType n)
  | 0 => ⟨mono_panic, mono_panic, mono_panic⟩
  | n + 1 => by
    obtain ⟨h1, h2, h3⟩ := mono_types n
    refine ⟨?_, ?_, ?_⟩
    · unfold type_; mono
    · unfold nonFnType; mono
    · unfold atomType; mono

theorem mono_type (n) : Mono (type_ n) := (mono_types n).1
theorem mono_atomType (n) : Mono (atomType n) := (mono_types n).2.2

theorem mono_exprs : ∀ n, Mono (expr n) ∧ Mono (matchCase n) ∧ (∀ q, Mono (opExpr n q)) ∧ Mono (applyExpr n) ∧ Mono (atomExpr n)
  | 0 => ⟨mono_panic, mono_panic, fun _ => mono_panic, mono_panic, mono_panic⟩
  | n + 1 => by
    obtain ⟨h1, h2, h3, h4, h5⟩ := mono_exprs n
    have h6 := mono_type n
    refine ⟨?_, ?_, fun q => ?_, ?_, ?_⟩
    · unfold expr
      have h3' := h3 0
      mono
    · unfold matchCase; mono
    · unfold opExpr
      refine mono_bind (mono_hint _) fun _ => mono_bind h4 fun r => ?_
      split
      · mono
      · refine mono_bind (mono_hint _) fun _ => mono_loop (fun m => mono_bind mono_peek fun x => ?_) _ _
        split
        · mono
        · rename_i pw r _
          have := h3 r
          mono
    · unfold applyExpr; mono
    · unfold atomExpr; mono

theorem mono_expr (n) : Mono (expr n) := (mono_exprs n).1

theorem mono_valueItem (n m) : Mono (valueItem n m) := by
  have h1 := mono_expr n
  have h2 := mono_type n
  unfold valueItem; mono

theorem mono_typeParams (n) : Mono (typeParams n) := by unfold typeParams; mono

theorem mono_typeCase (n b) : Mono (typeCase n b) := by
  have h2 := mono_atomType n
  unfold typeCase; mono

theorem mono_typeItem (n m) : Mono (typeItem n m) := by
  have h1 := mono_typeParams n
  have h2 := mono_typeCase n true
  have h3 := mono_typeCase n false
  unfold typeItem; mono

theorem mono_exposedList (n) : Mono (exposedList n) := by unfold exposedList; mono

theorem mono_item (n) : Mono (item n) := by
  have h1 := mono_exposedList n
  have h2 := fun m => mono_typeItem n m
  have h3 := fun m => mono_valueItem n m
  unfold item
  mono
  all_goals (first | exact h2 _ | exact h3 _)

end Tic.Grammar
