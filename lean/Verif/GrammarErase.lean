/-
The tree built from the events of a tree is that tree, with positions and trivia added.
-/
import Verif.GrammarEvents
import Verif.ParserTree

namespace Tic.Grammar

open Tic.Parser

/-- What a tree of the parser is without positions, spaces and comments. -/
def erase : Elem → List Syn
  | .node _ k _ _ cs => [.node k (go cs)]
  | .token k _ => [.tok k]
  | .trivia _ _ => []
where
  go : List Elem → List Syn
    | [] => []
    | c :: cs => erase c ++ go cs

theorem erase_go_append (a b : List Elem) : erase.go (a ++ b) = erase.go a ++ erase.go b := by
  induction a with
  | nil => simp [erase.go]
  | cons c cs ih => simp [erase.go, ih]

/-- Adding children to the last open node. -/
def Adds (nodes nodes' : List Open) (ts : List Syn) : Prop :=
  ∀ o os, nodes = o :: os → ∃ cs, nodes' = { o with children := o.children ++ cs } :: os ∧ erase.go cs = ts

theorem Adds.refl (l) : Adds l l [] := fun o os h => ⟨[], by simp [h], rfl⟩

theorem Adds.trans {a b c ts ts'} (h : Adds a b ts) (h' : Adds b c ts') : Adds a c (ts ++ ts') := by
  intro o os e
  obtain ⟨cs, e1, e2⟩ := h o os e
  obtain ⟨cs', e3, e4⟩ := h' _ _ e1
  exact ⟨cs ++ cs', by rw [e3]; simp, by rw [erase_go_append, e2, e4]⟩

theorem push_adds {b b' : Builder} {e} (h : b.push e = some b') : Adds b.nodes b'.nodes (erase e) := by
  obtain ⟨nodes, pos⟩ := b
  intro o os ho
  simp only at ho
  subst ho
  simp only [Builder.push, Option.some.injEq] at h
  subst h
  exact ⟨[e], rfl, by simp [erase.go]⟩

theorem addToken_adds {b b' : Builder} {k n} (h : b.addToken k n = some b') : Adds b.nodes b'.nodes [.tok k] := by
  simp only [Builder.addToken, Option.map_eq_some_iff] at h
  obtain ⟨b1, h1, rfl⟩ := h
  exact push_adds h1

theorem addTrivia_adds {b b' : Builder} {k n} (h : b.addTrivia k n = some b') : Adds b.nodes b'.nodes [] := by
  simp only [Builder.addTrivia, Option.map_eq_some_iff] at h
  obtain ⟨b1, h1, rfl⟩ := h
  exact push_adds h1

theorem addTrivias_adds : ∀ {ts : List (TriviaKind × Nat)} {b b' : Builder}, addTrivias ts b = some b' → Adds b.nodes b'.nodes []
  | [], b, b', h => by simp only [addTrivias, Option.some.injEq] at h; subst h; exact .refl _
  | (k, n) :: ts, b, b', h => by
    simp only [addTrivias, Option.bind_eq_some_iff] at h
    obtain ⟨b1, h1, h2⟩ := h
    exact (addTrivia_adds h1).trans (addTrivias_adds h2)

theorem addRest_adds : ∀ {ts : List Tok} {b b' : Builder}, addRest ts b = some b' → Adds b.nodes b'.nodes []
  | [], b, b', h => by simp only [addRest, Option.some.injEq] at h; subst h; exact .refl _
  | ⟨.token k, t⟩ :: ts, b, b', h => by simp [addRest] at h
  | ⟨.trivia k, t⟩ :: ts, b, b', h => by
    simp only [addRest, Option.bind_eq_some_iff] at h
    obtain ⟨b1, h1, h2⟩ := h
    exact (addTrivia_adds h1).trans (addRest_adds h2)

theorem nodeSteps_append (a b : List Event) (s : NodeState) : nodeSteps (a ++ b) s = (nodeSteps a s).bind (nodeSteps b) := by
  induction a generalizing s with
  | nil => rfl
  | cons e es ih =>
    simp only [List.cons_append, nodeSteps]
    cases nodeStep s e with
    | none => rfl
    | some s' => simp [ih]

theorem erase_close (o : Open) : erase o.close = [.node o.kind (erase.go o.children)] := by
  simp [Open.close, erase]

mutual
theorem steps_flat : ∀ (t : Syn) (s s' : NodeState), s.builder.nodes ≠ [] → nodeSteps t.flat s = some s' →
    Adds s.builder.nodes s'.builder.nodes [t] ∧ s'.builder.nodes ≠ [] ∧ s'.errors = s.errors
  | .tok k, s, s', hne, h => by
    simp only [Syn.flat, nodeSteps, Option.bind_eq_some_iff, Option.some.injEq, exists_eq_right] at h
    simp only [nodeStep, Option.bind_eq_some_iff] at h
    obtain ⟨b, h1, h2⟩ := h
    have a1 := addTrivias_adds h1
    split at h2
    · rename_i actual text ts _
      split at h2
      · simp only [Option.bind_eq_some_iff, Option.map_eq_some_iff] at h2
        obtain ⟨b2, h3, b3, h4, rfl⟩ := h2
        have a2 := a1.trans ((addToken_adds h3).trans (addTrivias_adds h4))
        refine ⟨by simpa using a2, ?_, rfl⟩
        obtain ⟨o, os, e⟩ := List.exists_cons_of_ne_nil hne
        obtain ⟨cs, e1, _⟩ := a2 o os e
        simp only [e1]; simp
      · simp at h2
    · simp at h2
  | .node k cs, s, s', hne, h => by
    simp only [Syn.flat, List.cons_append, nodeSteps, nodeStep, Option.bind_some] at h
    rw [nodeSteps_append, Option.bind_eq_some_iff] at h
    obtain ⟨s1, h1, h2⟩ := h
    obtain ⟨a, hne1, he⟩ := steps_go cs _ s1 (by simp [Builder.startNode]) h1
    obtain ⟨cs', e1, e2⟩ := a _ _ rfl
    simp only [nodeSteps, nodeStep, Option.bind_eq_some_iff, Option.map_eq_some_iff, Option.some.injEq, exists_eq_right] at h2
    obtain ⟨b2, h2, rfl⟩ := h2
    simp only [Builder.finishNode, e1] at h2
    have a2 := push_adds h2
    simp only at a2
    rw [erase_close] at a2
    simp only [List.nil_append, e2] at a2
    refine ⟨a2, ?_, by simpa using he⟩
    obtain ⟨o, os, e⟩ := List.exists_cons_of_ne_nil hne
    obtain ⟨cs, e1, _⟩ := a2 o os e
    simp only [e1]; simp
theorem steps_go : ∀ (ts : List Syn) (s s' : NodeState), s.builder.nodes ≠ [] → nodeSteps (Syn.flat.go ts) s = some s' →
    Adds s.builder.nodes s'.builder.nodes ts ∧ s'.builder.nodes ≠ [] ∧ s'.errors = s.errors
  | [], s, s', hne, h => by
    simp only [Syn.flat.go, nodeSteps, Option.some.injEq] at h
    subst h
    exact ⟨.refl _, hne, rfl⟩
  | t :: ts, s, s', hne, h => by
    simp only [Syn.flat.go] at h
    rw [nodeSteps_append, Option.bind_eq_some_iff] at h
    obtain ⟨s1, h1, h2⟩ := h
    obtain ⟨a1, n1, e1⟩ := steps_flat t s s1 hne h1
    obtain ⟨a2, n2, e2⟩ := steps_go ts s1 s' n1 h2
    exact ⟨a1.trans a2, n2, e2.trans e1⟩
end

/-- From the events of trees comes a root with these trees, and no diagnostics. -/
theorem eventsToNode_erase {ts : List Syn} {start : Nat} {toks : List Tok} {eatAll : Bool} {root errs}
    (h : eventsToNode (Syn.flat.go ts) start toks eatAll = some (root, errs)) : erase root = [.node .root ts] ∧ errs = [] := by
  unfold eventsToNode at h
  simp only [Option.bind_eq_some_iff, Option.map_eq_some_iff] at h
  obtain ⟨s, h1, b, h2, r, h3, h4⟩ := h
  obtain ⟨a, n, e⟩ := steps_go ts _ s (by simp [Builder.startNode]) h1
  have a2 : Adds s.builder.nodes b.nodes [] := by
    split at h2
    · simp only [Option.bind_eq_some_iff] at h2
      obtain ⟨b1, h5, h6⟩ := h2
      exact (addTrivias_adds h5).trans (addRest_adds h6)
    · simp only [Option.some.injEq] at h2; subst h2; exact .refl _
  obtain ⟨cs, e1, e2⟩ := (a.trans a2) _ _ rfl
  simp only [Builder.finish, e1, Option.some.injEq] at h3
  simp only [Prod.mk.injEq] at h4
  obtain ⟨rfl, rfl⟩ := h4
  refine ⟨?_, e⟩
  rw [← h3, erase_close]
  simp only [List.append_nil] at e2
  simp [e2]

end Tic.Grammar
