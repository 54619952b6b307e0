/-
C49: what the accessors show of a program is what its author wrote.
-/
import Verif.LowerItems
import Verif.LowerBack

namespace Tic.Lower

open Tic.Parser
open Tic.Grammar (Syn erase trees)

theorem kinds_words : ∀ ts : List Tok, kindsOf ts = (wordsOf ts).map Prod.fst
  | [] => rfl
  | ⟨k, t⟩ :: ts => by
    have := kinds_words ts
    cases k <;> simpa [kindsOf, wordsOf] using this

theorem words_append (a b : List Tok) : wordsOf (a ++ b) = wordsOf a ++ wordsOf b := by simp [wordsOf]

theorem words_kinds_len (ts : List Tok) : (wordsOf ts).length = (kindsOf ts).length := by rw [kinds_words]; simp

theorem erase_node {root : Elem} {ts} (h : trees root = ts) (hne : ts ≠ []) : ∃ id k a b cs, root = .node id k a b cs ∧ erase.go cs = ts := by
  cases root with
  | node id k a b cs => exact ⟨id, k, a, b, cs, rfl, by simpa [trees, erase] using h⟩
  | token => simp [trees, erase] at h; exact absurd h.symm (by simpa using hne)
  | trivia => simp [trees, erase] at h; exact absurd h.symm (by simpa using hne)

/-- The label of the root's children. -/
theorem root_label {root : Elem} {start t cs left} (h : trees root = [t]) (hl : root.leaves = place start cs) :
    ∃ id k a b ds t', root = .node id k a b ds ∧ label.go ⟨start, textOf (cs ++ left)⟩ ds = [t'] ∧ t'.shape = t ∧ t'.words = wordsOf cs ∧ Tagged t' := by
  obtain ⟨id, k, a, b, ds, rfl, hd⟩ := erase_node h (by simp)
  have h1 := shape_label_go ⟨start, textOf (cs ++ left)⟩ ds
  have h2 := words_label_go ⟨start, textOf (cs ++ left)⟩ ds
  have h3 := label_tagged_go ⟨start, textOf (cs ++ left)⟩ ds
  rw [hd] at h1
  rw [Elem.leaves] at hl
  rw [hl] at h2
  have h4 := leafWords_place start left cs []
  simp only [List.nil_append, show bytes ([] : List Tok) = 0 from rfl, Nat.add_zero] at h4
  rw [h4] at h2
  cases e : label.go ⟨start, textOf (cs ++ left)⟩ ds with
  | nil => rw [e] at h1; simp [TSyn.shape.go] at h1
  | cons t' ts =>
    rw [e] at h1 h2 h3
    cases ts with
    | cons => simp [TSyn.shape.go] at h1
    | nil =>
      refine ⟨id, k, a, b, ds, t', rfl, e, by simpa [TSyn.shape.go] using h1, by simpa [TSyn.words.go] using h2, h3 t' (by simp)⟩

/-- From the label to the view. -/
theorem root_view {s : Source} {id k a b ds} {i : SItem} (h : label.go s ds = [i.tree]) : ∃ v, item s (.node id k a b ds) = some v ∧ ShowsItem v i := by
  obtain ⟨ds', h1, h2⟩ := bare s ds
  rw [h] at h1
  cases h1 with
  | cons h3 h4 =>
    cases h4
    obtain ⟨v, e1, e2⟩ := show_item i h3
    refine ⟨v, ?_, e2⟩
    rw [item, h2.items]
    simp [e1]

theorem no_items {s : Source} {root : Elem} (h : trees root = []) : item s root = none ∨ ¬ ∃ id k a b ds, root = .node id k a b ds := by
  cases root with
  | node id k a b ds =>
    left
    have : label.go s ds = [] := by
      have h1 := shape_label_go s ds
      have : erase.go ds = [] := by simpa [trees, erase] using h
      rw [this] at h1
      cases e : label.go s ds with
      | nil => rfl
      | cons t ts => rw [e] at h1; simp [TSyn.shape.go] at h1
    obtain ⟨ds', h1, h2⟩ := bare s ds
    rw [this] at h1
    cases h1
    rw [item, h2.items]; rfl
  | token => right; rintro ⟨_, _, _, _, _, h⟩; cases h
  | trivia => right; rintro ⟨_, _, _, _, _, h⟩; cases h

theorem no_item {s : Source} {root : Elem} (h : trees root = []) : item s root = none := by
  cases root with
  | node id k a b ds =>
    rcases no_items (s := s) h with h | h
    · exact h
    · exact absurd ⟨_, _, _, _, _, rfl⟩ h
  | token => rfl
  | trivia => rfl

/-- Reading one item, both directions. -/
theorem view_one (toks : List Tok) (start : Nat) : ∃ root errs cs left, parseOneItem toks start = some (root, errs) ∧ toks = cs ++ left ∧ root.leaves = place start cs ∧
    (∀ (i : SItem) rest, i.Bracketed → wordsOf toks = i.tree.words ++ rest →
      errs = [] ∧ wordsOf cs = i.tree.words ∧ ∃ v, item ⟨start, textOf toks⟩ root = some v ∧ ShowsItem v i) ∧
    (wordsOf toks = [] → errs = [] ∧ item ⟨start, textOf toks⟩ root = none) ∧
    (errs = [] → (wordsOf toks = [] ∧ item ⟨start, textOf toks⟩ root = none) ∨
      ∃ i : SItem, i.Bracketed ∧ wordsOf cs = i.tree.words ∧ ∃ v, item ⟨start, textOf toks⟩ root = some v ∧ ShowsItem v i) := by
  obtain ⟨root, errs, cs, left, h1, h2, h3, h4, h5, h6⟩ := Grammar.parse_one toks start
  have nil : ∀ ts : List Tok, kindsOf ts = [] ↔ wordsOf ts = [] := fun ts => by rw [kinds_words]; simp
  refine ⟨root, errs, cs, left, h1, h2, h3, fun i rest hi hw => ?_, fun h => ?_, fun he => ?_⟩
  · obtain ⟨rfl, e1, e2⟩ := h4 _ (rest.map Prod.fst) hi (by rw [kinds_words, hw, List.map_append, words_fst])
    obtain ⟨id, k, a, b, ds, t', rfl, g1, g2, g3, g4⟩ := root_label (left := left) e1 h3
    have hw' : wordsOf cs = i.tree.words := by
      rw [h2, words_append] at hw
      have hl : (wordsOf cs).length = i.tree.words.length := by
        rw [words_kinds_len, e2, ← words_fst]; simp
      exact (List.append_inj hw hl).1
    have : t' = i.tree := tree_eq _ _ g2 (g3.trans hw')
    subst this
    refine ⟨rfl, hw', ?_⟩
    rw [h2]
    exact root_view g1
  · obtain ⟨a, b⟩ := h5 ((nil _).mpr h)
    exact ⟨a, no_item b⟩
  · rcases h6 he with ⟨a, b⟩ | ⟨t, ht, e1, e2⟩
    · exact .inl ⟨(nil _).mp a, no_item b⟩
    · obtain ⟨id, k, a, b, ds, t', rfl, g1, g2, g3, g4⟩ := root_label (left := left) e1 h3
      obtain ⟨i, rfl⟩ := back_item ht g2 g4
      refine .inr ⟨i, by unfold SItem.Bracketed; rw [g2]; exact ht, g3.symm, ?_⟩
      rw [h2]
      exact root_view g1

/-- **C49**, one item.  If the tokens start with those of an item written with the brackets its operators need, whatever the spaces and
comments between them, then the item is read without errors, its tokens and no others are consumed, and what the
accessors show is this item: every name, literal, operator, flag and part, in its place. -/
theorem reads_back (toks : List Tok) (start : Nat) (i : SItem) (rest : List (TokenKind × Option Text)) (hi : i.Bracketed)
    (hw : wordsOf toks = i.tree.words ++ rest) :
    ∃ root cs left v, parseOneItem toks start = some (root, []) ∧ toks = cs ++ left ∧ wordsOf cs = i.tree.words ∧ root.leaves = place start cs ∧
      item ⟨start, textOf toks⟩ root = some v ∧ ShowsItem v i := by
  obtain ⟨root, errs, cs, left, h1, h2, h3, h4, -, -⟩ := view_one toks start
  obtain ⟨rfl, e, v, h5, h6⟩ := h4 i rest hi hw
  exact ⟨root, cs, left, v, h1, h2, e, h3, h5, h6⟩

/-- **C49**, accepted text.  If reading reports no error then either there is nothing but spaces and comments, and there is no
item, or the tokens start with those of a properly bracketed item, and the accessors show that item: none of its
parts is missing, and no accessor panics. -/
theorem accepted_shows (toks : List Tok) (start : Nat) {root} (h : parseOneItem toks start = some (root, [])) :
    (wordsOf toks = [] ∧ item ⟨start, textOf toks⟩ root = none) ∨
      ∃ (i : SItem) (rest : List (TokenKind × Option Text)) (v : VItem), i.Bracketed ∧ wordsOf toks = i.tree.words ++ rest ∧
        item ⟨start, textOf toks⟩ root = some v ∧ ShowsItem v i := by
  obtain ⟨root', errs, cs, left, h1, h2, h3, -, -, h6⟩ := view_one toks start
  rw [h] at h1
  simp only [Option.some.injEq, Prod.mk.injEq] at h1
  obtain ⟨rfl, rfl⟩ := h1
  rcases h6 rfl with h7 | ⟨i, g1, g2, v, g3, g4⟩
  · exact .inl h7
  · exact .inr ⟨i, wordsOf left, v, g1, by rw [h2, words_append, g2], g3, g4⟩

/-! ### Whole files -/

section
variable {S D I : Type}

/-- The item of a tree of a file: the source of its tree is the source of the file from its start, `parser.rs:33`, `compiler.rs:159-160`. -/
def fileItem (src : List UInt8) (e : Elem) : Option VItem := item ⟨e.full.1, src.drop e.full.1⟩ e

/-- The items of a file. -/
def fileItems (p : Phases S D I) (src : List UInt8) (items : List I) : List VItem := items.filterMap fun i => fileItem src (p.syn i)

/-- The invariant. -/
structure InText (p : Phases S D I) (src : List UInt8) (all : List Tok) (items : List I) (cs left : List Tok) : Prop where
  split : all = cs ++ left
  sound : (∀ i ∈ items, p.parseErrors i = []) → ∃ ps : List SItem, (∀ i ∈ ps, i.Bracketed) ∧ wordsOf cs = ps.flatMap (·.tree.words) ∧
    Each ShowsItem (fileItems p src items) ps
  complete : ∀ ps : List SItem, (∀ i ∈ ps, i.Bracketed) → wordsOf all = ps.flatMap (·.tree.words) → (∀ i ∈ items, p.parseErrors i = []) ∧
    ∃ ps1 ps2, ps = ps1 ++ ps2 ∧ Each ShowsItem (fileItems p src items) ps1 ∧ wordsOf left = ps2.flatMap (·.tree.words)

theorem drop_text {src all cs left} (h : textOf all = src) (h2 : all = cs ++ left) : src.drop (bytes cs) = textOf left := by
  have : textOf (cs ++ left) = textOf cs ++ textOf left := by simp [textOf]
  rw [← h, h2, this, bytes_text, List.drop_left]

theorem inText_step {p : Phases S D I} {src all} (hall : textOf all = src) : ∀ items cs i ds rest, InText p src all items cs (ds ++ rest) →
    parseOneItem (ds ++ rest) (bytes cs) = some (p.syn i, p.parseErrors i) → (p.syn i).leaves = place (bytes cs) ds → InText p src all (items ++ [i]) (cs ++ ds) rest := by
  intro items cs i ds rest h hp hl
  obtain ⟨root, errs, ds', rest', h1, h2, h3, h4, h5, h6⟩ := view_one (ds ++ rest) (bytes cs)
  obtain ⟨root', errs', cs'', left'', k1, -, -, k4, -⟩ := parse_total (ds ++ rest) (bytes cs)
  rw [hp] at h1 k1
  simp only [Option.some.injEq, Prod.mk.injEq] at h1 k1
  obtain ⟨rfl, rfl⟩ := h1
  obtain ⟨rfl, rfl⟩ := k1
  have hv : fileItem src (p.syn i) = item ⟨bytes cs, textOf (ds ++ rest)⟩ (p.syn i) := by
    unfold fileItem; rw [k4, drop_text hall h.split]
  have pl : ∀ (ts : List Tok) n, (place n ts).length = ts.length := by
    intro ts
    induction ts with
    | nil => intro _; rfl
    | cons t ts ih => intro n; simp [place, ih]
  have hds : ds' = ds ∧ rest' = rest := by
    have : ds'.length = ds.length := by rw [← pl ds' (bytes cs), ← h3, hl, pl]
    obtain ⟨a, b⟩ := List.append_inj h2 this.symm
    exact ⟨a.symm, b.symm⟩
  obtain ⟨rfl, rfl⟩ := hds
  rw [← hv] at h4 h5 h6
  have hfi : fileItems p src (items ++ [i]) = fileItems p src items ++ (fileItem src (p.syn i)).toList := by
    unfold fileItems; rw [List.filterMap_append]
    cases e : fileItem src (p.syn i) <;> simp [List.filterMap_cons, e]
  refine ⟨by rw [h.split]; simp, fun he => ?_, fun ps hps hw => ?_⟩
  · obtain ⟨ps, g1, g2, g3⟩ := h.sound fun j hj => he j (by simp [hj])
    rw [hfi, words_append, g2]
    rcases h6 (he i (by simp)) with ⟨a, b⟩ | ⟨it, hit, b, v, c, d⟩
    · rw [words_append] at a
      refine ⟨ps, g1, by rw [(List.append_eq_nil_iff.mp a).1, List.append_nil], by rw [b]; simpa using g3⟩
    · refine ⟨ps ++ [it], fun j hj => ?_, by rw [b]; simp, by rw [c]; exact g3.append (.cons d .nil)⟩
      rcases List.mem_append.mp hj with hj | hj
      · exact g1 j hj
      · rw [List.mem_singleton] at hj; rw [hj]; exact hit
  · obtain ⟨g1, ps1, ps2, rfl, g2, g3⟩ := h.complete ps hps hw
    have fin : p.parseErrors i = [] → ∀ j ∈ items ++ [i], p.parseErrors j = [] := by
      intro e j hj
      rcases List.mem_append.mp hj with hj | hj
      · exact g1 j hj
      · rw [List.mem_singleton] at hj; rw [hj]; exact e
    cases ps2 with
    | nil =>
      obtain ⟨a, b⟩ := h5 g3
      rw [words_append] at g3
      exact ⟨fin a, ps1, [], rfl, by rw [hfi, b]; simpa using g2, (List.append_eq_nil_iff.mp g3).2⟩
    | cons it ps2 =>
      have hit : it.Bracketed := hps it (by simp)
      rw [List.flatMap_cons] at g3
      obtain ⟨a, b, v, c, d⟩ := h4 it _ hit g3
      rw [words_append, b] at g3
      exact ⟨fin a, ps1 ++ [it], ps2, by simp, by rw [hfi, c]; exact g2.append (.cons d .nil), List.append_cancel_left g3⟩

/-- **C49**, whole files.  Whatever the lexer, the analyses and the history of requests, after compiling to the end of a file:
no item has a syntax error exactly if the file is a list of properly bracketed items written one after another; and then the
accessors show those items, in their order. -/
theorem file_reads_back {p : Phases S D I} (hp : p.Lawful) (r : LexRules) (src : List UInt8) (os : List Nat) :
    ∃ before items, p.requests r src os [] = some before ∧ p.compileUpTo r src src.length before = some items ∧
      ((∀ i ∈ items, p.parseErrors i = []) ↔ ∃ ps : List SItem, (∀ i ∈ ps, i.Bracketed) ∧ wordsOf (lex r src) = ps.flatMap (·.tree.words)) ∧
      ∀ ps : List SItem, (∀ i ∈ ps, i.Bracketed) → wordsOf (lex r src) = ps.flatMap (·.tree.words) → Each ShowsItem (fileItems p src items) ps := by
  have hall : textOf (lex r src) = src := text_lex r _ _ (Nat.le_refl _)
  have h0 : InText p src (lex r src) ([] : List I) [] (lex r src) :=
    ⟨rfl, fun _ => ⟨[], by simp, rfl, .nil⟩, fun ps _ h => ⟨by simp, [], ps, rfl, .nil, h⟩⟩
  obtain ⟨before, cs, left, h1, h2, h3⟩ := Grammar.requests_inv hp (Inv := InText p src (lex r src)) (inText_step hall) os (.nil p r src) h0
  obtain ⟨items, cs', left', g1, g2, g3⟩ := Grammar.compileUpTo_inv hp (offset := src.length) (Inv := InText p src (lex r src)) (inText_step hall) h2 h3
  have hlen : p.compiledLength items = src.length := by
    obtain ⟨items', cs'', left'', k1, k2, k3, -⟩ := compileUpTo_covers hp (offset := src.length) h2
    rw [g1] at k1
    cases k1
    have := g2.le
    rcases k3 with h | h <;> omega
  have hleft : left' = [] := by
    cases left' with
    | nil => rfl
    | cons t ts =>
      have h3 := bytes_lex r src
      rw [g2.toks, bytes_append, bytes_cons, ← g2.len, hlen] at h3
      have := lex_pos r src.length src (Nat.le_refl _) t (by rw [g2.toks]; simp)
      omega
  refine ⟨before, items, h1, g1, ⟨fun he => ?_, ?_⟩, ?_⟩
  · obtain ⟨ps, k1, k2, -⟩ := g3.sound he
    exact ⟨ps, k1, by rw [g2.toks, hleft, List.append_nil]; exact k2⟩
  · rintro ⟨ps, hps, hw⟩
    exact (g3.complete ps hps hw).1
  · intro ps hps hw
    obtain ⟨-, ps1, ps2, rfl, k2, k3⟩ := g3.complete ps hps hw
    have : ps2 = [] := by
      cases ps2 with
      | nil => rfl
      | cons i ps2 =>
        rw [hleft] at k3
        have e : i.tree.words = [] := by
          rw [List.flatMap_cons] at k3
          exact (List.append_eq_nil_iff.mp k3.symm).1
        cases i <;> simp [SItem.tree, TSyn.words, words_go_append, TSyn.words.go, kw] at e
    rw [this, List.append_nil]; exact k2

end

end Tic.Lower
