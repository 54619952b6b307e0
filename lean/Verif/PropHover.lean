/-
C53: hovering.
-/
import Verif.HoverFind
import Verif.HoverChecked

namespace Tic.Hover

open Tic.Parser
open Tic.Lower (drop_text)

section
variable {S D I : Type}

/-- The invariant: the trees are laid out one after another, their ids are different, and all expressions have types. -/
structure Fine (p : Phases S D I) (src : List UInt8) (all : List Tok) (items : List I) (cs left : List Tok) : Prop where
  split : all = cs ++ left
  tiles : Tiles 0 (bytes cs) (items.map p.syn)
  wf : ∀ i ∈ items, (p.syn i).Wf
  ids : ∀ i ∈ items, (p.syn i).ids.Nodup
  types : ∀ i ∈ items, p.parseErrors i = [] → typedIn src (p.syn i) = exprIds (p.syn i)

theorem fine_step {p : Phases S D I} {src all} (hall : textOf all = src) : ∀ items cs i ds rest, Fine p src all items cs (ds ++ rest) →
    parseOneItem (ds ++ rest) (bytes cs) = some (p.syn i, p.parseErrors i) → (p.syn i).leaves = place (bytes cs) ds → Fine p src all (items ++ [i]) (cs ++ ds) rest := by
  intro items cs i ds rest h hp hl
  obtain ⟨root', errs', cs'', left'', k1, k2, k3, k4, k5, ⟨n, k6⟩, -⟩ := parse_total (ds ++ rest) (bytes cs)
  rw [hp] at k1
  simp only [Option.some.injEq, Prod.mk.injEq] at k1
  obtain ⟨rfl, rfl⟩ := k1
  have pl : ∀ (ts : List Tok) n, (place n ts).length = ts.length := by
    intro ts
    induction ts with
    | nil => intro _; rfl
    | cons t ts ih => intro n; simp [place, ih]
  have hds : cs'' = ds := by
    have : cs''.length = ds.length := by rw [← pl cs'' (bytes cs), ← k3, hl, pl]
    exact (List.append_inj k2 this.symm).1.symm
  subst hds
  have new : ∀ {Q : I → Prop}, (∀ j ∈ items, Q j) → Q i → ∀ j ∈ items ++ [i], Q j := by
    intro Q h1 h2 j hj
    rcases List.mem_append.mp hj with hj | hj
    · exact h1 j hj
    · rw [List.mem_singleton] at hj; rw [hj]; exact h2
  refine ⟨by rw [h.split]; simp, ?_, new h.wf k5, new h.ids (by rw [k6]; exact List.nodup_range), new h.types fun he => ?_⟩
  · rw [List.map_append]
    refine h.tiles.append ⟨?_, ?_⟩
    · rw [k4]
    · show (p.syn i).full.2 = _
      rw [k4, bytes_append]
  · have e : typedIn src (p.syn i) = typed ⟨bytes cs, textOf (cs'' ++ rest)⟩ (p.syn i) := by
      unfold typedIn; rw [k4, drop_text hall h.split]
    rw [e]
    rw [he] at hp
    exact typed_all _ _ hp

theorem inj_map {α β : Type} {f : α → β} : ∀ {l : List α}, (l.map f).Nodup → ∀ {a b}, a ∈ l → b ∈ l → f a = f b → a = b
  | [], _, _, _, h, _, _ => by simp at h
  | x :: l, h, a, b, ha, hb, e => by
    rw [List.map_cons, List.nodup_cons] at h
    rcases List.mem_cons.mp ha with rfl | ha <;> rcases List.mem_cons.mp hb with rfl | hb
    · rfl
    · exact absurd (List.mem_map.mpr ⟨b, hb, e.symm⟩) h.1
    · exact absurd (List.mem_map.mpr ⟨a, (by assumption : a ∈ l), e⟩) h.1
    · exact inj_map h.2 ha hb e

theorem id_unique {c d e : Elem} (h : c.ids.Nodup) (hd : d ∈ descendants c) (he : e ∈ descendants c) (hi : nodeId d = nodeId e) : d = e := by
  rw [← ids_eq] at h
  exact inj_map h hd he hi

/-- The answers, in terms of `touches`. -/
theorem hover_touches {p : Phases S D I} (hp : p.Lawful) (r : LexRules) (src : List UInt8) (os : List Nat) (pos : Nat) :
    ∃ before items, p.requests r src os [] = some before ∧ p.compileUpTo r src (pos + 1) before = some items ∧
      (pos < p.compiledLength items ∨ p.compiledLength items = src.length) ∧
      (exprInfo src p.syn items pos = .nothing ↔ ∀ j ∈ items, ∀ d ∈ descendants (p.syn j), exprNode d = true → touches d.span pos = false) ∧
      (exprInfo src p.syn items pos = .nothing ∨
        ∃ i ∈ items, ∃ x ∈ descendants (p.syn i), exprNode x = true ∧ touches x.span pos = true ∧
          (∀ y ∈ below x, exprNode y = true → touches y.span pos = false) ∧
          (∀ j ∈ items, ∀ d ∈ descendants (p.syn j), exprNode d = true → touches d.span pos = true → d = x ∨ x ∈ below d ∨ (d.span.2 = pos ∧ x.span.1 = pos)) ∧
          (∀ d ∈ descendants (p.syn i), nodeId d = nodeId x → d = x) ∧
          (p.parseErrors i = [] → exprInfo src p.syn items pos = .shows x.span (nodeId x)) ∧
          (exprInfo src p.syn items pos = .shows x.span (nodeId x) ∨ exprInfo src p.syn items pos = .panics)) := by
  have hall : textOf (lex r src) = src := text_lex r _ _ (Nat.le_refl _)
  have h0 : Fine p src (lex r src) ([] : List I) [] (lex r src) := ⟨rfl, rfl, by simp, by simp, by simp⟩
  obtain ⟨before, cs, left, h1, h2, h3⟩ := Grammar.requests_inv hp (Inv := Fine p src (lex r src)) (fine_step hall) os (.nil p r src) h0
  obtain ⟨items, cs', left', g1, g2, g3⟩ := Grammar.compileUpTo_inv hp (offset := pos + 1) (Inv := Fine p src (lex r src)) (fine_step hall) h2 h3
  have hc : pos < p.compiledLength items ∨ p.compiledLength items = src.length := by
    obtain ⟨items', cs'', left'', k1, k2, k3, -⟩ := compileUpTo_covers hp (offset := pos + 1) h2
    rw [g1] at k1
    cases k1
    have := g2.le
    rcases k3 with h | h <;> omega
  refine ⟨before, items, h1, g1, hc, ?_, ?_⟩
  · rw [← found_none g3.wf]
    unfold exprInfo
    cases e : findExpr p.syn items pos with
    | none => simp
    | some x => obtain ⟨i, x⟩ := x; simp only [reduceCtorEq, iff_false]; split <;> simp
  · cases e : findExpr p.syn items pos with
    | none => left; unfold exprInfo; rw [e]
    | some x =>
      obtain ⟨i, x⟩ := x
      obtain ⟨k1, k2, k3, k4, k5, k6⟩ := found_expr g3.tiles g3.wf e
      refine .inr ⟨i, k1, x, k2, k3, k4, k5, k6, fun d hd hi => id_unique (g3.ids i k1) hd k2 hi, fun he => ?_, ?_⟩
      · unfold exprInfo
        rw [e]
        simp only
        rw [if_pos]
        rw [g3.types i k1 he, exprIds, List.mem_map]
        exact ⟨x, List.mem_filter.mpr ⟨k2, k3⟩, rfl⟩
      · unfold exprInfo
        rw [e]
        simp only
        split
        · exact .inl rfl
        · exact .inr rfl

/-- At a position: neither before the start nor after the end. -/
def At (sp : Nat × Nat) (pos : Nat) : Prop := ¬ pos < sp.1 ∧ ¬ sp.2 < pos

theorem touches_iff (sp : Nat × Nat) (pos : Nat) : touches sp pos = true ↔ At sp pos := by simp [touches, At]
theorem touches_not (sp : Nat × Nat) (pos : Nat) : touches sp pos = false ↔ ¬ At sp pos := by rw [← touches_iff]; simp

/-- **C53**.  Whatever the lexer, the analyses and the history of requests, asking what is at a position of a file:

* considers everything up to that position;
* gives nothing exactly if no expression of the part that is compiled is there;
* otherwise it is about one expression `x` there, of an item `i`, and no expression inside it is there too; any other expression there encloses it, or ends where it begins;
* if that item has no syntax error then its type is shown, with its extent: the request does not panic;
* and the type is looked up by an id that no other node of the item has. -/
theorem hover_answers {p : Phases S D I} (hp : p.Lawful) (r : LexRules) (src : List UInt8) (os : List Nat) (pos : Nat) :
    ∃ before items, p.requests r src os [] = some before ∧ p.compileUpTo r src (pos + 1) before = some items ∧
      (pos < p.compiledLength items ∨ p.compiledLength items = src.length) ∧
      (exprInfo src p.syn items pos = .nothing ↔ ∀ j ∈ items, ∀ d ∈ descendants (p.syn j), exprNode d = true → ¬ At d.span pos) ∧
      (exprInfo src p.syn items pos = .nothing ∨
        ∃ i ∈ items, ∃ x ∈ descendants (p.syn i), exprNode x = true ∧ At x.span pos ∧
          (∀ y ∈ below x, exprNode y = true → ¬ At y.span pos) ∧
          (∀ j ∈ items, ∀ d ∈ descendants (p.syn j), exprNode d = true → At d.span pos → d = x ∨ x ∈ below d ∨ (d.span.2 = pos ∧ x.span.1 = pos)) ∧
          (∀ d ∈ descendants (p.syn i), nodeId d = nodeId x → d = x) ∧
          (p.parseErrors i = [] → exprInfo src p.syn items pos = .shows x.span (nodeId x)) ∧
          (exprInfo src p.syn items pos = .shows x.span (nodeId x) ∨ exprInfo src p.syn items pos = .panics)) := by
  have h := hover_touches hp r src os pos
  simp only [touches_iff, touches_not] at h
  exact h

end

end Tic.Hover
