/-
Lemmas about lists of parser events: links between nodes, balance.
-/
import Verif.Parser

namespace Tic.Parser

def isStart : Event → Bool
  | .startNode _ _ => true
  | _ => false

def isFinish : Event → Bool
  | .finishNode => true
  | _ => false

/-- How many nodes are started / finished. -/
def st (es : List Event) : Nat := es.countP isStart
def fi (es : List Event) : Nat := es.countP isFinish

/-- The tokens the events add. -/
def toksOf : List Event → List TokenKind
  | [] => []
  | .addToken k :: es => k :: toksOf es
  | _ :: es => toksOf es

/-- The tokens that are not trivia. -/
def kindsOf : List Tok → List TokenKind
  | [] => []
  | t :: ts => match t.kind with
    | .token k => k :: kindsOf ts
    | .trivia _ => kindsOf ts

/-- The text of tokens. -/
def bytes (ts : List Tok) : Nat := (ts.map fun t => t.text.length).sum

theorem toksOf_append (a b : List Event) : toksOf (a ++ b) = toksOf a ++ toksOf b := by
  induction a with
  | nil => rfl
  | cons e a ih => cases e <;> simp [toksOf, ih]

theorem kindsOf_append (a b : List Tok) : kindsOf (a ++ b) = kindsOf a ++ kindsOf b := by
  induction a with
  | nil => rfl
  | cons t a ih =>
    simp only [List.cons_append, kindsOf, ih]
    split <;> rfl

theorem bytes_append (a b : List Tok) : bytes (a ++ b) = bytes a + bytes b := by simp [bytes]

theorem bytes_cons (t : Tok) (b : List Tok) : bytes (t :: b) = t.text.length + bytes b := by simp [bytes]

/-- The links of a list of events at position `b`: no open marker, and parents are nodes that start
later, each the parent of one node only. -/
structure Links (b : Nat) (D : List Event) : Prop where
  noPh : ∀ e ∈ D, e ≠ .placeholder
  fp : ∀ (i : Nat) k j, D[i]? = some (Event.startNode k (some j)) → b + i < j ∧ ∃ k' f, D[j - b]? = some (Event.startNode k' f)
  inj : ∀ (i i' : Nat) k k' j, D[i]? = some (Event.startNode k (some j)) → D[i']? = some (Event.startNode k' (some j)) → i = i'

/-- Every finished node has been started before, and all are finished. -/
structure Bal (D : List Event) : Prop where
  pre : ∀ n, fi (D.take n) ≤ st (D.take n)
  tot : fi D = st D

theorem lt_of_get {D : List Event} {i : Nat} {e} (h : D[i]? = some e) : i < D.length := (List.getElem?_eq_some_iff.mp h).1

theorem Links.append {b D1 D2} (h1 : Links b D1) (h2 : Links (b + D1.length) D2) : Links b (D1 ++ D2) := by
  have idx : ∀ {i : Nat} {k j}, (D1 ++ D2)[i]? = some (Event.startNode k (some j)) →
      (i < D1.length ∧ D1[i]? = some (Event.startNode k (some j)) ∧ j - b < D1.length) ∨
      (D1.length ≤ i ∧ D2[i - D1.length]? = some (Event.startNode k (some j)) ∧ D1.length ≤ j - b) := by
    intro i k j h
    by_cases hi : i < D1.length
    · rw [List.getElem?_append_left hi] at h
      obtain ⟨_, k', f, hj⟩ := h1.fp i k j h
      exact .inl ⟨hi, h, lt_of_get hj⟩
    · rw [List.getElem?_append_right (by omega)] at h
      have := (h2.fp _ k j h).1
      exact .inr ⟨by omega, h, by omega⟩
  refine ⟨?_, ?_, ?_⟩
  · intro e he
    rcases List.mem_append.mp he with he | he
    · exact h1.noPh e he
    · exact h2.noPh e he
  · intro i k j h
    rcases idx h with ⟨hi, h, hj⟩ | ⟨hi, h, hj⟩
    · obtain ⟨h3, k', f, h4⟩ := h1.fp i k j h
      exact ⟨h3, k', f, by rw [List.getElem?_append_left hj]; exact h4⟩
    · obtain ⟨h3, k', f, h4⟩ := h2.fp _ k j h
      refine ⟨by omega, k', f, ?_⟩
      rw [List.getElem?_append_right hj]
      have : j - b - D1.length = j - (b + D1.length) := by omega
      rw [this]; exact h4
  · intro i i' k k' j h h'
    rcases idx h with ⟨hi, h, hj⟩ | ⟨hi, h, hj⟩ <;> rcases idx h' with ⟨hi', h', hj'⟩ | ⟨hi', h', hj'⟩
    · exact h1.inj i i' k k' j h h'
    · omega
    · omega
    · have := h2.inj _ _ k k' j h h'
      omega

theorem Links.nil (b) : Links b [] := ⟨by simp, by simp, by simp⟩

theorem Links.single {b e} (h : e ≠ .placeholder) (h' : ∀ k j, e ≠ .startNode k (some j)) : Links b [e] := by
  have aux : ∀ (i : Nat) k j, [e][i]? = some (Event.startNode k (some j)) → False := by
    intro i k j hi
    cases i with
    | zero => simp at hi; exact h' k j hi
    | succ i => simp at hi
  exact ⟨by simp [h], fun i k j hi => (aux i k j hi).elim, fun i _ k _ j hi => (aux i k j hi).elim⟩

/-- Giving a node without a parent one that is added at the end. -/
theorem Links.precede {b D} {m : Nat} {k} (h : Links b D) (hm : D[m]? = some (Event.startNode k none)) (k' : SyntaxKind) :
    Links b (D.set m (.startNode k (some (b + D.length))) ++ [.startNode k' none]) := by
  have hlt := lt_of_get hm
  have hget : ∀ i : Nat, i < D.length → (D.set m (.startNode k (some (b + D.length))) ++ [.startNode k' none])[i]? =
      if i = m then some (Event.startNode k (some (b + D.length))) else D[i]? := by
    intro i hi
    rw [List.getElem?_append_left (by simpa using hi)]
    by_cases he : i = m
    · subst he; simp [hlt]
    · rw [List.getElem?_set_ne (Ne.symm he), if_neg he]
  have hlast : (D.set m (.startNode k (some (b + D.length))) ++ [.startNode k' none])[D.length]? = some (Event.startNode k' none) := by
    rw [List.getElem?_append_right (by simp)]; simp
  have idx : ∀ {i : Nat} {k'' j}, (D.set m (.startNode k (some (b + D.length))) ++ [.startNode k' none])[i]? = some (Event.startNode k'' (some j)) →
      i < D.length ∧ ((i = m ∧ j = b + D.length) ∨ (i ≠ m ∧ D[i]? = some (Event.startNode k'' (some j)))) := by
    intro i k'' j hi
    have hl : i < D.length ∨ i = D.length := by
      have := lt_of_get hi
      simp at this; omega
    rcases hl with hl | rfl
    · refine ⟨hl, ?_⟩
      rw [hget i hl] at hi
      by_cases he : i = m
      · simp [he] at hi; exact .inl ⟨he, hi.2.symm⟩
      · rw [if_neg he] at hi; exact .inr ⟨he, hi⟩
    · rw [hlast] at hi; simp at hi
  refine ⟨?_, ?_, ?_⟩
  · intro e he
    rcases List.mem_append.mp he with he | he
    · rcases List.mem_or_eq_of_mem_set he with he | rfl
      · exact h.noPh e he
      · simp
    · simp at he; subst he; simp
  · intro i k'' j hi
    obtain ⟨hl, ⟨rfl, rfl⟩ | ⟨he, hD⟩⟩ := idx hi
    · exact ⟨by omega, k', none, by rw [Nat.add_sub_cancel_left]; exact hlast⟩
    · obtain ⟨h3, k3, f, h4⟩ := h.fp i k'' j hD
      refine ⟨h3, ?_⟩
      rw [hget _ (lt_of_get h4)]
      by_cases hjm : j - b = m
      · exact ⟨k, _, by rw [if_pos hjm]⟩
      · exact ⟨k3, f, by rw [if_neg hjm]; exact h4⟩
  · intro i i' k1 k2 j hi hi'
    obtain ⟨hl, ⟨rfl, rfl⟩ | ⟨he, hD⟩⟩ := idx hi <;> obtain ⟨hl', ⟨rfl, h5⟩ | ⟨he', hD'⟩⟩ := idx hi'
    · rfl
    · obtain ⟨h3, k3, f, h4⟩ := h.fp i' k2 _ hD'
      have := lt_of_get h4
      omega
    · subst h5
      obtain ⟨h3, k3, f, h4⟩ := h.fp i k1 _ hD
      have := lt_of_get h4
      omega
    · exact h.inj i i' k1 k2 j hD hD'

theorem st_append (a b) : st (a ++ b) = st a + st b := by simp [st]
theorem fi_append (a b) : fi (a ++ b) = fi a + fi b := by simp [fi]

theorem Bal.nil : Bal [] := ⟨by simp [fi, st], rfl⟩

theorem Bal.append {a b} (h1 : Bal a) (h2 : Bal b) : Bal (a ++ b) := by
  refine ⟨fun n => ?_, by rw [st_append, fi_append, h1.tot, h2.tot]⟩
  rw [List.take_append, st_append, fi_append]
  have := h1.pre n
  have := h2.pre (n - a.length)
  omega

theorem Bal.single {e} (h : isStart e = false) (h' : isFinish e = false) : Bal [e] := by
  refine ⟨fun n => ?_, by simp [fi, st, h, h']⟩
  cases n <;> simp [fi, st, h, h']

theorem Bal.wrap {D k f} (h : Bal D) : Bal (.startNode k f :: (D ++ [.finishNode])) := by
  have hs : isStart (.startNode k f) = true := rfl
  have hf : isFinish (.startNode k f) = false := rfl
  refine ⟨fun n => ?_, ?_⟩
  · cases n with
    | zero => simp [fi, st]
    | succ n =>
      rw [List.take_succ_cons, List.take_append]
      have := h.pre n
      have h1 : ∀ l, st (.startNode k f :: l) = st l + 1 := fun l => by simp [st, hs]
      have h2 : ∀ l, fi (.startNode k f :: l) = fi l := fun l => by simp [fi, hf]
      rw [h1, h2, st_append, fi_append]
      have h3 : fi (List.take (n - D.length) [Event.finishNode]) ≤ 1 := by
        cases n - D.length <;> simp [fi, isFinish]
      omega
  · have h1 : ∀ l, st (.startNode k f :: l) = st l + 1 := fun l => by simp [st, hs]
    have h2 : ∀ l, fi (.startNode k f :: l) = fi l := fun l => by simp [fi, hf]
    rw [h1, h2, st_append, fi_append, h.tot]
    simp [fi, st, isStart, isFinish]

theorem countP_set_same {p : Event → Bool} : ∀ {D : List Event} {i : Nat} {e e'}, D[i]? = some e → p e = p e' → (D.set i e').countP p = D.countP p
  | [], _, _, _, h, _ => by simp at h
  | a :: D, 0, e, e', h, he => by simp at h; subst h; simp [List.countP_cons, he]
  | a :: D, i + 1, e, e', h, he => by
    simp only [List.getElem?_cons_succ] at h
    simp only [List.set_cons_succ, List.countP_cons, countP_set_same h he]

theorem Bal.set {D} {m : Nat} {k f f'} (h : Bal D) (hm : D[m]? = some (Event.startNode k f)) : Bal (D.set m (.startNode k f')) := by
  have key : ∀ (p : Event → Bool), p (.startNode k f) = p (.startNode k f') → ∀ n, ((D.set m (.startNode k f')).take n).countP p = (D.take n).countP p := by
    intro p hp n
    rw [List.take_set]
    by_cases hn : m < n
    · exact countP_set_same (by rw [List.getElem?_take_of_lt hn]; exact hm) hp
    · rw [List.set_eq_of_length_le (by simp; omega)]
  refine ⟨fun n => ?_, ?_⟩
  · unfold fi st
    rw [key isFinish rfl, key isStart rfl]
    exact h.pre n
  · unfold fi st
    rw [countP_set_same (e' := .startNode k f') hm rfl, countP_set_same (e' := .startNode k f') hm rfl]
    exact h.tot

theorem toksOf_set {D} {m : Nat} {k f f'} (hm : D[m]? = some (Event.startNode k f)) : toksOf (D.set m (.startNode k f')) = toksOf D := by
  induction D generalizing m with
  | nil => simp at hm
  | cons e D ih =>
    cases m with
    | zero => simp at hm; subst hm; rfl
    | succ m =>
      simp only [List.getElem?_cons_succ] at hm
      simp only [List.set_cons_succ]
      cases e <;> simp [toksOf, ih hm]

end Tic.Parser
