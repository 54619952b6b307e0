/-
Trees of the parser with the texts of their tokens.
-/
import Verif.LowerSpec
import Verif.PropGrammar

namespace Tic.Lower

open Tic.Parser
open Tic.Grammar (Syn erase trees)

/-- What a tree of the parser is without positions, ids, spaces and comments, but with the texts that matter. -/
def label (s : Source) : Elem → List TSyn
  | .node _ k _ _ cs => [.node k (go cs)]
  | .token k sp => [.tok k (if carries k then some (s.slice sp) else none)]
  | .trivia _ _ => []
where
  go : List Elem → List TSyn
    | [] => []
    | c :: cs => label s c ++ go cs

theorem label_go_append (s) (a b : List Elem) : label.go s (a ++ b) = label.go s a ++ label.go s b := by
  induction a with
  | nil => simp [label.go]
  | cons c cs ih => simp [label.go, ih]

theorem shape_go_append (a b : List TSyn) : TSyn.shape.go (a ++ b) = TSyn.shape.go a ++ TSyn.shape.go b := by
  induction a with
  | nil => simp [TSyn.shape.go]
  | cons c cs ih => simp [TSyn.shape.go, ih]

theorem words_go_append (a b : List TSyn) : TSyn.words.go (a ++ b) = TSyn.words.go a ++ TSyn.words.go b := by
  induction a with
  | nil => simp [TSyn.words.go]
  | cons c cs ih => simp [TSyn.words.go, ih]

mutual
theorem shape_label (s) : ∀ e : Elem, TSyn.shape.go (label s e) = erase e
  | .token k p => by simp [label, TSyn.shape.go, TSyn.shape, erase]
  | .trivia k p => by simp [label, TSyn.shape.go, erase]
  | .node _ k _ _ cs => by simp [label, TSyn.shape.go, TSyn.shape, erase, shape_label_go s cs]
theorem shape_label_go (s) : ∀ cs : List Elem, TSyn.shape.go (label.go s cs) = erase.go cs
  | [] => by simp [label.go, TSyn.shape.go, erase.go]
  | c :: cs => by rw [label.go, shape_go_append, shape_label s c, shape_label_go s cs, erase.go]
end

/-- The tokens among leaves, with the texts that matter. -/
def leafWords (s : Source) : List (LexKind × (Nat × Nat)) → List (TokenKind × Option Text)
  | [] => []
  | (.token k, sp) :: l => (k, if carries k then some (s.slice sp) else none) :: leafWords s l
  | (.trivia _, _) :: l => leafWords s l

theorem leafWords_append (s) (a b) : leafWords s (a ++ b) = leafWords s a ++ leafWords s b := by
  induction a with
  | nil => rfl
  | cons x a ih => obtain ⟨k, p⟩ := x; cases k <;> simp [leafWords, ih]

mutual
theorem words_label (s) : ∀ e : Elem, TSyn.words.go (label s e) = leafWords s e.leaves
  | .token k p => by simp [label, TSyn.words.go, TSyn.words, Elem.leaves, leafWords]
  | .trivia k p => by simp [label, TSyn.words.go, Elem.leaves, leafWords]
  | .node _ k _ _ cs => by simp [label, TSyn.words.go, TSyn.words, Elem.leaves, words_label_go s cs]
theorem words_label_go (s) : ∀ cs : List Elem, TSyn.words.go (label.go s cs) = leafWords s (Elem.leaves.go cs)
  | [] => by simp [label.go, TSyn.words.go, Elem.leaves.go, leafWords]
  | c :: cs => by rw [label.go, words_go_append, words_label s c, words_label_go s cs, Elem.leaves.go, leafWords_append]
end

/-- The texts found by position are the texts of the tokens. -/
theorem leafWords_place (start : Nat) (left : List Tok) : ∀ (cs pre : List Tok),
    leafWords ⟨start, textOf (pre ++ cs ++ left)⟩ (place (start + bytes pre) cs) = wordsOf cs
  | [], pre => by simp [place, leafWords, wordsOf]
  | t :: cs, pre => by
    have ih := leafWords_place start left cs (pre ++ [t])
    have hb : start + bytes pre + t.text.length = start + bytes (pre ++ [t]) := by simp [bytes_text, textOf]; omega
    have hs : Source.slice ⟨start, textOf (pre ++ t :: cs ++ left)⟩ (start + bytes pre, start + bytes pre + t.text.length) = t.text := by
      simp only [Source.slice]
      have e1 : start + bytes pre - start = (textOf pre).length := by rw [bytes_text]; omega
      have e2 : start + bytes pre + t.text.length - start - (start + bytes pre - start) = t.text.length := by omega
      rw [e2, e1]
      have e3 : textOf (pre ++ t :: cs ++ left) = textOf pre ++ (t.text ++ textOf (cs ++ left)) := by simp [textOf]
      rw [e3, List.drop_left, List.take_left]
    have e : pre ++ t :: cs ++ left = pre ++ [t] ++ cs ++ left := by simp
    rw [place, hb]
    obtain ⟨kind, text⟩ := t
    cases kind with
    | token k =>
      rw [leafWords]
      rw [hb] at hs
      simp only at hs ih e ⊢
      rw [hs, e, ih]
      simp [wordsOf]
    | trivia k =>
      rw [leafWords, e, ih]
      simp [wordsOf]

/-! ### A tree is determined by its shape and its words -/

mutual
theorem words_fst : ∀ t : TSyn, t.words.map Prod.fst = t.shape.yield
  | .tok k t => by simp [TSyn.words, TSyn.shape, Syn.yield]
  | .node k cs => by simp [TSyn.words, TSyn.shape, Syn.yield, words_fst_go cs]
theorem words_fst_go : ∀ ts : List TSyn, (TSyn.words.go ts).map Prod.fst = Syn.yield.go (TSyn.shape.go ts)
  | [] => by simp [TSyn.words.go, TSyn.shape.go, Syn.yield.go]
  | t :: ts => by simp [TSyn.words.go, TSyn.shape.go, Syn.yield.go, words_fst t, words_fst_go ts]
end

theorem words_len {a b : TSyn} (h : a.shape = b.shape) : a.words.length = b.words.length := by
  have := congrArg List.length ((words_fst a).trans ((congrArg Syn.yield h).trans (words_fst b).symm))
  simpa using this

mutual
theorem tree_eq : ∀ a b : TSyn, a.shape = b.shape → a.words = b.words → a = b
  | .tok k t, .tok k' t', _, h => by simpa [TSyn.words] using h
  | .tok k t, .node k' cs, h, _ => by simp [TSyn.shape] at h
  | .node k cs, .tok k' t', h, _ => by simp [TSyn.shape] at h
  | .node k cs, .node k' cs', h, h' => by
    simp only [TSyn.shape, Syn.node.injEq] at h
    simp only [TSyn.words] at h'
    rw [h.1, trees_eq cs cs' h.2 h']
theorem trees_eq : ∀ a b : List TSyn, TSyn.shape.go a = TSyn.shape.go b → TSyn.words.go a = TSyn.words.go b → a = b
  | [], [], _, _ => rfl
  | [], _ :: _, h, _ => by simp [TSyn.shape.go] at h
  | _ :: _, [], h, _ => by simp [TSyn.shape.go] at h
  | a :: as, b :: bs, h, h' => by
    simp only [TSyn.shape.go, List.cons.injEq] at h
    simp only [TSyn.words.go] at h'
    obtain ⟨e1, e2⟩ := List.append_inj h' (words_len h.1)
    rw [tree_eq a b h.1 e1, trees_eq as bs h.2 e2]
end

/-- Texts exactly where they matter. -/
inductive Tagged : TSyn → Prop
  | tok {k t} : t.isSome = carries k → Tagged (.tok k t)
  | node {k cs} : (∀ c ∈ cs, Tagged c) → Tagged (.node k cs)

mutual
theorem label_tagged (s) : ∀ e : Elem, ∀ t ∈ label s e, Tagged t
  | .token k p, t, h => by
    simp only [label, List.mem_singleton] at h
    subst h
    refine .tok ?_
    cases carries k <;> simp
  | .trivia k p, t, h => by simp [label] at h
  | .node _ k _ _ cs, t, h => by
    simp only [label, List.mem_singleton] at h
    subst h
    exact .node (label_tagged_go s cs)
theorem label_tagged_go (s) : ∀ cs : List Elem, ∀ t ∈ label.go s cs, Tagged t
  | [], t, h => by simp [label.go] at h
  | c :: cs, t, h => by
    rw [label.go, List.mem_append] at h
    exact h.elim (label_tagged s c t) (label_tagged_go s cs t)
end

end Tic.Lower
