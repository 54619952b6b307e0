/-
C49: reading the token of a node never fails, whatever the text.
-/
import Verif.LeafTree
import Verif.LowerUniq

namespace Tic.Lower

open Tic.Parser
open Tic.Grammar (kinds)

theorem parse_good {toks start root errs} (h : parseOneItem toks start = some (root, errs)) : Good root := by
  obtain ⟨s1, s2, eatAll, s3, events, h1, h2, h3, h4, h5, h6⟩ := Grammar.parseOneItem_run h
  have he1 : s1.events = [] := h2.2
  have c1 : Single s1.events := by rw [he1]; exact ⟨by simp, by simp⟩
  have hs : Single s3.events ∧ Links 0 s3.events := by
    rw [h4.2]
    split at h3
    · subst h3
      exact ⟨c1, by rw [he1]; exact .nil 0⟩
    · rename_i hx
      refine ⟨(keep_item _).run _ _ _ trivial h3 c1, ?_⟩
      obtain ⟨r, s', g1, g2⟩ := ok_peek (s := { sol := true, toks := toks, off := start, pos := start, events := [], hints := [], expected := [] })
        (Q := fun r s' => Peeked { sol := true, toks := toks, off := start, pos := start, events := [], hints := [], expected := [] } s' r) (fun _ _ h => h)
      rw [h1] at g1
      simp only [Option.some.injEq, Prod.mk.injEq] at g1
      obtain ⟨rfl, rfl⟩ := g1
      cases hk : (kindsOf toks).head? with
      | none => rw [hk] at hx; simp at hx
      | some k =>
        have hc : cnt s1 ≤ (kindsOf toks).length := g2.adv.cnt_le
        have := Grammar.kinds_length_le toks
        obtain ⟨_, s2', k1, k2⟩ := ok_item (n := enough toks) (g2.tok k hk) (by unfold enough; omega)
        rw [h3] at k1
        cases k1
        obtain ⟨cs, D, -, -, e3, e4, -⟩ := k2.adv
        rw [he1] at e3 e4
        rw [e3]; simpa using e4
  refine tree_good (reorder_whole hs.1 (fun q k x hq => ?_) h5) h6
  obtain ⟨-, k', f, h⟩ := hs.2.fp q k x hq
  exact ⟨k', f, by simpa using h⟩

theorem leaves_mem {c : Elem} {x} (hx : x ∈ c.leaves) : ∀ {cs : List Elem}, c ∈ cs → x ∈ Elem.leaves.go cs
  | d :: cs, h => by
    rw [Elem.leaves.go, List.mem_append]
    rcases List.mem_cons.mp h with rfl | h
    · exact .inl hx
    · exact .inr (leaves_mem hx h)

theorem within_leaves {e root : Elem} (h : Within e root) : ∀ x ∈ e.leaves, x ∈ root.leaves := by
  induction h with
  | self => exact fun _ h => h
  | child hm _ ih => exact fun x hx => by rw [Elem.leaves]; exact leaves_mem (ih x hx) hm

theorem spans_leaves {t sp} : ∀ {cs : List Elem}, (t, sp) ∈ tokenSpans cs → (.token t, sp) ∈ Elem.leaves.go cs
  | [], h => by simp [tokenSpans] at h
  | c :: cs, h => by
    rw [Elem.leaves.go, List.mem_append]
    have : tokenSpans (c :: cs) = tokenSpans [c] ++ tokenSpans cs := spans_append [c] cs
    rw [this, List.mem_append] at h
    rcases h with h | h
    · left
      cases c <;> simp [tokenSpans] at h
      obtain ⟨rfl, rfl⟩ := h
      simp [Elem.leaves]
    · exact .inr (spans_leaves h)

/-- The text at the position of a token is its text. -/
theorem slice_place (start : Nat) (left : List Tok) {k sp} : ∀ (cs pre : List Tok), (k, sp) ∈ place (start + bytes pre) cs →
    ⟨k, Source.slice ⟨start, textOf (pre ++ cs ++ left)⟩ sp⟩ ∈ cs
  | [], pre, h => by simp [place] at h
  | t :: cs, pre, h => by
    have ih := slice_place start left (k := k) (sp := sp) cs (pre ++ [t])
    have hb : start + bytes pre + t.text.length = start + bytes (pre ++ [t]) := by simp [bytes_text, textOf]; omega
    have hs : Source.slice ⟨start, textOf (pre ++ t :: cs ++ left)⟩ (start + bytes pre, start + bytes pre + t.text.length) = t.text := by
      simp only [Source.slice]
      have e1 : start + bytes pre - start = (textOf pre).length := by rw [bytes_text]; omega
      have e2 : start + bytes pre + t.text.length - start - (start + bytes pre - start) = t.text.length := by omega
      rw [e2, e1]
      have e3 : textOf (pre ++ t :: cs ++ left) = textOf pre ++ (t.text ++ textOf (cs ++ left)) := by simp [textOf]
      rw [e3, List.drop_left, List.take_left]
    rw [place, List.mem_cons] at h
    rcases h with h | h
    · simp only [Prod.mk.injEq] at h
      obtain ⟨rfl, rfl⟩ := h
      rw [hs]; simp
    · rw [hb] at h
      have := ih h
      have e : pre ++ t :: cs ++ left = pre ++ [t] ++ cs ++ left := by simp
      rw [e]; exact List.mem_cons_of_mem _ this

theorem tokensIn_spans (s : Source) (cs : List Elem) : tokensIn s cs = (tokenSpans cs).map fun x => (x.1, s.slice x.2) := by
  induction cs with
  | nil => rfl
  | cons c cs ih =>
    cases c with
    | token k sp => simp only [tokensIn, tokenSpans, List.filterMap_cons, tokenOf, List.map_cons]; exact congrArg _ ih
    | trivia k sp => exact ih
    | node id k a b ds => exact ih

/-- **C49**, any text.  Whatever the tokens, in an item read with or without errors, and wherever in its tree: a name, a literal, a hole,
an operator and a built-in type consist of exactly one token; it is of a kind they are written with, and its text is
that of a token of the source.  So the accessors that unwrap it do not panic. -/
theorem token_never_missing {toks : List Tok} {start : Nat} {root errs} (h : parseOneItem toks start = some (root, errs)) {id k a b cs}
    (hw : Within (.node id k a b cs) root) (hk : single k = true) :
    ∃ t text, tokensIn ⟨start, textOf toks⟩ cs = [(t, text)] ∧ wraps k t = true ∧ ⟨.token t, text⟩ ∈ toks := by
  obtain ⟨t, sp, h1, h2⟩ := (parse_good h).all _ _ _ _ _ hw hk
  refine ⟨t, Source.slice ⟨start, textOf toks⟩ sp, by rw [tokensIn_spans, h1]; rfl, h2, ?_⟩
  obtain ⟨root', errs', cs', left, g1, g2, g3, -⟩ := parse_total toks start
  rw [h] at g1
  cases g1
  have hm : (.token t, sp) ∈ root.leaves := within_leaves hw _ (by rw [Elem.leaves]; exact spans_leaves (by rw [h1]; simp))
  rw [g3] at hm
  have := slice_place start left cs' [] (by simpa [bytes] using hm)
  rw [g2]
  simp only [List.nil_append] at this
  exact List.mem_append_left _ this

/-- The same with the accessors: `token()` of names, literals and operators. -/
theorem first_token {toks : List Tok} {start : Nat} {root errs} (h : parseOneItem toks start = some (root, errs)) {id k a b cs}
    (hw : Within (.node id k a b cs) root) (hk : single k = true) : ∃ t text, firstToken ⟨start, textOf toks⟩ cs = some (t, text) ∧ wraps k t = true ∧ ⟨.token t, text⟩ ∈ toks := by
  obtain ⟨t, text, h1, h2, h3⟩ := token_never_missing h hw hk
  exact ⟨t, text, by rw [firstToken, h1]; rfl, h2, h3⟩

/-- And the accessors that ask for a kind: holes and built-in types. -/
theorem child_token {toks : List Tok} {start : Nat} {root errs} (h : parseOneItem toks start = some (root, errs)) {id k t a b cs}
    (hw : Within (.node id k a b cs) root) (hk : (k, t) ∈ [(SyntaxKind.holeExpr, TokenKind.hole), (.intType, .int), (.boolType, .bool), (.stringType, .stringTy)]) :
    (childToken ⟨start, textOf toks⟩ cs t).isSome := by
  simp only [List.mem_cons, Prod.mk.injEq, List.not_mem_nil, or_false] at hk
  have key : single k = true → (∀ t', wraps k t' = true → t' = t) → (childToken ⟨start, textOf toks⟩ cs t).isSome := by
    intro hs hu
    obtain ⟨t', text, h1, h2, -⟩ := token_never_missing h hw hs
    rw [childToken, h1, hu t' h2]
    simp
  rcases hk with ⟨rfl, rfl⟩ | ⟨rfl, rfl⟩ | ⟨rfl, rfl⟩ | ⟨rfl, rfl⟩ <;> exact key rfl fun t' h => by simpa [wraps] using h

end Tic.Lower
