/-
Nodes that consist of one token: the tree.
-/
import Verif.LeafReorder
import Verif.PropLower

namespace Tic.Lower

open Tic.Parser
open Tic.Grammar (kinds)

/-- An element of a tree: the tree itself, a child, a child of a child, and so on. -/
inductive Within (e : Elem) : Elem → Prop
  | self : Within e e
  | child {id k a b cs c} : c ∈ cs → Within e c → Within e (.node id k a b cs)

/-- The tokens among elements. -/
def tokenSpans (cs : List Elem) : List (TokenKind × (Nat × Nat)) :=
  cs.filterMap fun
    | .token k sp => some (k, sp)
    | _ => none

/-- The node has one token, of a right kind. -/
def Wraps (k : SyntaxKind) (cs : List Elem) : Prop := ∃ t sp, tokenSpans cs = [(t, sp)] ∧ wraps k t = true

/-- Every node of one token has one. -/
structure Good (e : Elem) : Prop where
  all : ∀ id k a b cs, Within (.node id k a b cs) e → single k = true → Wraps k cs

theorem Good.token (k sp) : Good (.token k sp) := ⟨fun _ _ _ _ _ h => by cases h⟩
theorem Good.trivia (k sp) : Good (.trivia k sp) := ⟨fun _ _ _ _ _ h => by cases h⟩

theorem Good.node {id k a b cs} (hk : single k = true → Wraps k cs) (hc : ∀ c ∈ cs, Good c) : Good (.node id k a b cs) := ⟨fun _ _ _ _ _ h hs => by
  cases h with
  | self => exact hk hs
  | child hm h => exact (hc _ hm).all _ _ _ _ _ h hs⟩

/-- Trivia. -/
def IsTrivia (e : Elem) : Prop := ∃ k sp, e = .trivia k sp

/-- The children of the last open node grow. -/
def Grows (b b' : Builder) (cs : List Elem) : Prop :=
  ∀ o os, b.nodes = o :: os → b'.nodes = { o with children := o.children ++ cs } :: os

theorem addTrivias_grows : ∀ {ts b b'}, addTrivias ts b = some b' → ∃ cs, Grows b b' cs ∧ ∀ c ∈ cs, IsTrivia c
  | [], b, b', h => by
    simp only [addTrivias, Option.some.injEq] at h
    subst h
    exact ⟨[], fun o os h => by simp [h], by simp⟩
  | (k, n) :: ts, b, b', h => by
    simp only [addTrivias, Option.bind_eq_some_iff] at h
    obtain ⟨b1, h1, h2⟩ := h
    obtain ⟨cs, g1, g2⟩ := addTrivias_grows h2
    refine ⟨.trivia k (b.pos, b.pos + n) :: cs, fun o os ho => ?_, ?_⟩
    · simp only [Builder.addTrivia, Builder.push, ho, Option.map_some, Option.some.injEq] at h1
      have : b1.nodes = { o with children := o.children ++ [.trivia k (b.pos, b.pos + n)] } :: os := by rw [← h1]
      rw [g1 _ _ this]; simp
    · intro c hc
      rcases List.mem_cons.mp hc with rfl | hc
      · exact ⟨_, _, rfl⟩
      · exact g2 c hc

theorem addRest_grows : ∀ {ts b b'}, addRest ts b = some b' → ∃ cs, Grows b b' cs ∧ ∀ c ∈ cs, IsTrivia c
  | [], b, b', h => by
    simp only [addRest, Option.some.injEq] at h
    subst h
    exact ⟨[], fun o os h => by simp [h], by simp⟩
  | ⟨.token k, t⟩ :: ts, b, b', h => by simp [addRest] at h
  | ⟨.trivia k, t⟩ :: ts, b, b', h => by
    simp only [addRest, Option.bind_eq_some_iff] at h
    obtain ⟨b1, h1, h2⟩ := h
    obtain ⟨cs, g1, g2⟩ := addRest_grows h2
    refine ⟨.trivia k (b.pos, b.pos + t.length) :: cs, fun o os ho => ?_, ?_⟩
    · simp only [Builder.addTrivia, Builder.push, ho, Option.map_some, Option.some.injEq] at h1
      have : b1.nodes = { o with children := o.children ++ [.trivia k (b.pos, b.pos + t.length)] } :: os := by rw [← h1]
      rw [g1 _ _ this]; simp
    · intro c hc
      rcases List.mem_cons.mp hc with rfl | hc
      · exact ⟨_, _, rfl⟩
      · exact g2 c hc

/-- A token with the trivia around it. -/
theorem addToken_grows {s s' : NodeState} {t} {o os} (ho : s.builder.nodes = o :: os) (h : nodeStep s (.addToken t) = some s') :
    ∃ as sp bs, s'.builder.nodes = { o with children := o.children ++ (as ++ .token t sp :: bs) } :: os ∧ (∀ c ∈ as, IsTrivia c) ∧ (∀ c ∈ bs, IsTrivia c) := by
  simp only [nodeStep, Option.bind_eq_some_iff] at h
  obtain ⟨b, h1, h2⟩ := h
  obtain ⟨as, g1, g2⟩ := addTrivias_grows h1
  have hb := g1 _ _ ho
  split at h2
  · rename_i actual text ts hl
    split at h2
    · simp only [Option.bind_eq_some_iff, Option.map_eq_some_iff] at h2
      obtain ⟨b1, h3, b2, h4, h5⟩ := h2
      obtain ⟨bs, k1, k2⟩ := addTrivias_grows h4
      simp only [Builder.addToken, Builder.push, hb, Option.map_some, Option.some.injEq] at h3
      have : b1.nodes = { o with children := o.children ++ as ++ [.token t (b.pos, b.pos + text.length)] } :: os := by rw [← h3]
      have hb2 := k1 _ _ this
      refine ⟨as, (b.pos, b.pos + text.length), bs, ?_, g2, k2⟩
      rw [← h5]
      simp [hb2]
    · cases h2
  · cases h2

theorem spans_trivia {cs : List Elem} (h : ∀ c ∈ cs, IsTrivia c) : tokenSpans cs = [] := by
  induction cs with
  | nil => rfl
  | cons c cs ih =>
    obtain ⟨k, sp, rfl⟩ := h c (by simp)
    have := ih fun c hc => h c (by simp [hc])
    simpa [tokenSpans] using this

theorem spans_append (a b) : tokenSpans (a ++ b) = tokenSpans a ++ tokenSpans b := by simp [tokenSpans]

theorem trivia_good {c} (h : IsTrivia c) : Good c := by obtain ⟨_, _, rfl⟩ := h; exact .trivia _ _

/-- What is built so far. -/
structure Built (b : Builder) : Prop where
  some : b.nodes ≠ []
  open_ : ∀ o ∈ b.nodes, single o.kind = false
  good : ∀ o ∈ b.nodes, ∀ c ∈ o.children, Good c

theorem Built.grow {b b' : Builder} {o os cs} (h : Built b) (ho : b.nodes = o :: os) (h' : b'.nodes = { o with children := o.children ++ cs } :: os) (hc : ∀ c ∈ cs, Good c) : Built b' := by
  refine ⟨by rw [h']; simp, fun x hx => ?_, fun x hx c hc' => ?_⟩
  · rw [h'] at hx
    rcases List.mem_cons.mp hx with rfl | hx
    · exact h.open_ o (by rw [ho]; simp)
    · exact h.open_ x (by rw [ho]; simp [hx])
  · rw [h'] at hx
    rcases List.mem_cons.mp hx with rfl | hx
    · rcases List.mem_append.mp hc' with hc' | hc'
      · exact h.good o (by rw [ho]; simp) c hc'
      · exact hc c hc'
    · exact h.good x (by rw [ho]; simp [hx]) c hc'

theorem Built.grows {b b' : Builder} {cs} (h : Built b) (h' : Grows b b' cs) (hc : ∀ c ∈ cs, Good c) : Built b' := by
  cases e : b.nodes with
  | nil => exact absurd e h.some
  | cons o os => exact h.grow e (h' o os e) hc

theorem finish_nodes {b b' : Builder} {o os} (ho : b.nodes = o :: os) (h : b.finishNode = some b') : ∃ p ps, os = p :: ps ∧ b'.nodes = { p with children := p.children ++ [o.close] } :: ps := by
  simp only [Builder.finishNode, ho, Builder.push] at h
  cases os with
  | nil => simp at h
  | cons p ps =>
    simp only [Option.some.injEq] at h
    exact ⟨p, ps, rfl, by rw [← h]⟩

theorem steps_built : ∀ {ev : List Event}, Whole ev → ∀ {s s' : NodeState}, Built s.builder → nodeSteps ev s = some s' → Built s'.builder
  | _, .nil, s, s', hb, h => by simp only [nodeSteps, Option.some.injEq] at h; rw [← h]; exact hb
  | _, .leaf (k := k) (f := f) (t := t) hk ht hw, s, s', hb, h => by
    simp only [nodeSteps, Option.bind_eq_some_iff] at h
    obtain ⟨s1, h1, s2, h2, s3, h3, h4⟩ := h
    refine steps_built hw ?_ h4
    simp only [nodeStep, Option.some.injEq] at h1
    have n1 : s1.builder.nodes = { id := s.nextId, kind := k, at_ := s.builder.pos, children := [] } :: s.builder.nodes := by rw [← h1]; rfl
    obtain ⟨as, sp, bs, n2, g1, g2⟩ := addToken_grows n1 h2
    simp only [nodeStep, Option.map_eq_some_iff] at h3
    obtain ⟨b3, h5, h6⟩ := h3
    obtain ⟨p, ps, e1, e2⟩ := finish_nodes n2 h5
    have : s3.builder = b3 := by rw [← h6]
    rw [this]
    refine hb.grow e1 e2 fun c hc => ?_
    rw [List.mem_singleton] at hc
    subst hc
    simp only [Open.close, List.nil_append]
    refine .node (fun _ => ⟨t, sp, ?_, ht⟩) fun c hc => ?_
    · have : tokenSpans (.token t sp :: bs) = (t, sp) :: tokenSpans bs := rfl
      rw [spans_append, spans_trivia g1, this, spans_trivia g2]; rfl
    · rcases List.mem_append.mp hc with hc | hc
      · exact trivia_good (g1 c hc)
      · rcases List.mem_cons.mp hc with rfl | hc
        · exact .token _ _
        · exact trivia_good (g2 c hc)
  | _, .other (e := e) hn hw, s, s', hb, h => by
    simp only [nodeSteps, Option.bind_eq_some_iff] at h
    obtain ⟨s1, h1, h2⟩ := h
    refine steps_built hw ?_ h2
    cases hnode : s.builder.nodes with
    | nil => exact absurd hnode hb.some
    | cons o os =>
    cases e with
    | startNode k f =>
      simp only [nodeStep, Option.some.injEq] at h1
      have n1 : s1.builder.nodes = { id := s.nextId, kind := k, at_ := s.builder.pos, children := [] } :: s.builder.nodes := by rw [← h1]; rfl
      refine ⟨by rw [n1]; simp, fun x hx => ?_, fun x hx c hc => ?_⟩
      · rw [n1] at hx
        rcases List.mem_cons.mp hx with rfl | hx
        · exact hn k f rfl
        · exact hb.open_ x hx
      · rw [n1] at hx
        rcases List.mem_cons.mp hx with rfl | hx
        · simp at hc
        · exact hb.good x hx c hc
    | error a b => simp only [nodeStep, Option.some.injEq] at h1; rw [← h1]; exact hb
    | addToken t =>
      obtain ⟨as, sp, bs, n2, g1, g2⟩ := addToken_grows hnode h1
      refine hb.grow hnode n2 fun c hc => ?_
      rcases List.mem_append.mp hc with hc | hc
      · exact trivia_good (g1 c hc)
      · rcases List.mem_cons.mp hc with rfl | hc
        · exact .token _ _
        · exact trivia_good (g2 c hc)
    | finishNode =>
      simp only [nodeStep, Option.map_eq_some_iff] at h1
      obtain ⟨b, h3, h4⟩ := h1
      obtain ⟨p, ps, e1, e2⟩ := finish_nodes hnode h3
      have hs : s1.builder = b := by rw [← h4]
      rw [hs]
      refine ⟨by rw [e2]; simp, fun x hx => ?_, fun x hx c hc => ?_⟩
      · rw [e2] at hx
        rcases List.mem_cons.mp hx with rfl | hx
        · exact hb.open_ p (by rw [hnode, e1]; simp)
        · exact hb.open_ x (by rw [hnode, e1]; simp [hx])
      · rw [e2] at hx
        rcases List.mem_cons.mp hx with rfl | hx
        · rcases List.mem_append.mp hc with hc | hc
          · exact hb.good p (by rw [hnode, e1]; simp) c hc
          · rw [List.mem_singleton] at hc
            subst hc
            simp only [Open.close]
            refine .node (fun hs => ?_) (hb.good o (by rw [hnode]; simp))
            rw [hb.open_ o (by rw [hnode]; simp)] at hs; cases hs
        · exact hb.good x (by rw [hnode, e1]; simp [hx]) c hc
    | placeholder => simp [nodeStep] at h1

theorem tree_good {ev start toks eatAll root errs} (hw : Whole ev) (h : eventsToNode ev start toks eatAll = some (root, errs)) : Good root := by
  unfold eventsToNode at h
  simp only [Option.bind_eq_some_iff, Option.map_eq_some_iff] at h
  obtain ⟨s, h1, b, h2, r, h3, h4⟩ := h
  have b0 := steps_built hw (by
    refine ⟨by simp [Builder.startNode], ?_, ?_⟩ <;> intro o ho <;> simp [Builder.startNode] at ho <;> subst ho
    · rfl
    · simp) h1
  have b1 : Built b := by
    split at h2
    · simp only [Option.bind_eq_some_iff] at h2
      obtain ⟨b', h5, h6⟩ := h2
      obtain ⟨cs, g1, g2⟩ := addTrivias_grows h5
      obtain ⟨ds, k1, k2⟩ := addRest_grows h6
      exact (b0.grows g1 fun c hc => trivia_good (g2 c hc)).grows k1 fun c hc => trivia_good (k2 c hc)
    · simp only [Option.some.injEq] at h2; rw [← h2]; exact b0
  simp only [Prod.mk.injEq] at h4
  obtain ⟨rfl, rfl⟩ := h4
  unfold Builder.finish at h3
  split at h3
  · rename_i o ho
    simp only [Option.some.injEq] at h3
    rw [← h3]
    simp only [Open.close]
    refine .node (fun hs => ?_) (b1.good o (by rw [ho]; simp))
    rw [b1.open_ o (by rw [ho]; simp)] at hs; cases hs
  · cases h3

end Tic.Lower
