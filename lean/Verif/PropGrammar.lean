/-
C48: a program is accepted without syntax errors exactly if it is in the grammar of `GrammarSpec`, and
then its tree is the tree the grammar gives it; the grammar is unambiguous.
-/
import Verif.GrammarErrors
import Verif.PropParser

namespace Tic.Grammar

open Tic.Parser

/-- The children of the root of a tree, without positions and trivia: the items in it. -/
def trees (e : Elem) : List Syn :=
  match erase e with
  | [.node _ ts] => ts
  | _ => []

/-! ### The tokens of a tree -/

/-- The tokens among leaves. -/
def tokKinds : List (LexKind × (Nat × Nat)) → List TokenKind
  | [] => []
  | (.token k, _) :: l => k :: tokKinds l
  | (.trivia _, _) :: l => tokKinds l

theorem tokKinds_append (a b) : tokKinds (a ++ b) = tokKinds a ++ tokKinds b := by
  induction a with
  | nil => rfl
  | cons x a ih => obtain ⟨k, p⟩ := x; cases k <;> simp [tokKinds, ih]

theorem tokKinds_place : ∀ (ts : List Tok) pos, tokKinds (place pos ts) = kindsOf ts
  | [], _ => rfl
  | ⟨k, t⟩ :: ts, pos => by cases k <;> simp [place, tokKinds, kindsOf, tokKinds_place ts]

mutual
theorem yields_erase : ∀ e : Elem, yields (erase e) = tokKinds e.leaves
  | .token k p => by simp [erase, yields_cons, yield_tok, Elem.leaves, tokKinds]
  | .trivia k p => by simp [erase, Elem.leaves, tokKinds]
  | .node _ k _ _ cs => by
    rw [erase, yields_cons, yields_nil, yield_node, List.append_nil, Elem.leaves]
    exact yields_erase_go cs
theorem yields_erase_go : ∀ cs : List Elem, yields (erase.go cs) = tokKinds (Elem.leaves.go cs)
  | [] => rfl
  | c :: cs => by rw [erase.go, yields_append, yields_erase c, yields_erase_go cs, Elem.leaves.go, tokKinds_append]
end

/-! ### One item -/

theorem parseOneItem_run {toks start root errs} (h : parseOneItem toks start = some (root, errs)) :
    ∃ s1 s2 eatAll s3 events, peek { sol := true, toks := toks, off := start, pos := start, events := [], hints := [], expected := [] } = some ((kindsOf toks).head?, s1) ∧
      Same { sol := true, toks := toks, off := start, pos := start, events := [], hints := [], expected := [] } s1 ∧
      (if (kindsOf toks).head?.isNone then s2 = s1 else item (enough toks) s1 = some ((), s2)) ∧ Same s2 s3 ∧
      reorder s3.events = some events ∧ eventsToNode events start toks eatAll = some (root, errs) := by
  unfold parseOneItem at h
  obtain ⟨s1, h1, h2, -⟩ := peek_eq { sol := true, toks := toks, off := start, pos := start, events := [], hints := [], expected := [] }
  have e1 : atEof { sol := true, toks := toks, off := start, pos := start, events := [], hints := [], expected := [] } = some ((kindsOf toks).head?.isNone, s1) := by
    unfold atEof; rw [bind_eq, h1]; rfl
  simp only [e1, Option.bind_eq_bind, Option.bind_some] at h
  have tail : ∀ s2, ((atEof s2).bind fun x => (reorder x.2.events).bind fun events => eventsToNode events start toks x.1) = some (root, errs) →
      ∃ eatAll s3 events, Same s2 s3 ∧ reorder s3.events = some events ∧ eventsToNode events start toks eatAll = some (root, errs) := by
    intro s2 h
    obtain ⟨s3, h4, h5, -⟩ := peek_eq s2
    have e2 : atEof s2 = some ((kinds s2).head?.isNone, s3) := by unfold atEof; rw [bind_eq, h4]; rfl
    simp only [e2, Option.bind_some] at h
    rw [Option.bind_eq_some_iff] at h
    obtain ⟨events, h6, h7⟩ := h
    exact ⟨_, s3, events, h5, h6, h7⟩
  split at h
  · rename_i hx
    obtain ⟨eatAll, s3, events, t1, t2, t3⟩ := tail s1 h
    exact ⟨s1, s1, eatAll, s3, events, h1, h2, by rw [if_pos hx], t1, t2, t3⟩
  · rename_i hx
    rw [Option.bind_eq_some_iff] at h
    obtain ⟨⟨⟨⟩, s2⟩, h3, h⟩ := h
    obtain ⟨eatAll, s3, events, t1, t2, t3⟩ := tail s2 h
    exact ⟨s1, s2, eatAll, s3, events, h1, h2, by rw [if_neg hx]; exact h3, t1, t2, t3⟩

theorem kinds_length_le (ts : List Tok) : (kindsOf ts).length ≤ ts.length := by
  induction ts with
  | nil => simp [kindsOf]
  | cons t ts ih => simp only [kindsOf]; split <;> simp <;> omega

/-- Reading one item, in both directions. -/
theorem parse_one (toks : List Tok) (start : Nat) : ∃ root errs cs left, parseOneItem toks start = some (root, errs) ∧ toks = cs ++ left ∧ root.leaves = place start cs ∧
    (∀ t rest, Item t → kindsOf toks = t.yield ++ rest → errs = [] ∧ trees root = [t] ∧ kindsOf cs = t.yield) ∧
    (kindsOf toks = [] → errs = [] ∧ trees root = []) ∧
    (errs = [] → (kindsOf toks = [] ∧ trees root = []) ∨ ∃ t, Item t ∧ trees root = [t] ∧ kindsOf cs = t.yield) := by
  obtain ⟨root, errs, cs, left, h1, h2, h3, -⟩ := parse_total toks start
  obtain ⟨s1, s2, eatAll, s3, events, e1, e2, e3, e4, e5, e6⟩ := parseOneItem_run h1
  have hcs : yields (erase root) = kindsOf cs := by rw [yields_erase, h3, tokKinds_place]
  have ev1 : s1.events = [] := e2.2
  -- from emitted trees to the result
  have fin : ∀ ts, Emits s1 s2 ts → erase root = [.node .root ts] ∧ errs = [] := by
    rintro ts ⟨D, d1, d2⟩
    rw [ev1] at d1 d2
    simp only [List.nil_append, List.length_nil] at d1 d2
    have := Forest.reorder d2
    rw [← d1, ← e4.2, e5] at this
    cases this
    exact eventsToNode_erase e6
  have out : ∀ ts, Emits s1 s2 ts → errs = [] ∧ trees root = ts ∧ kindsOf cs = yields ts := by
    intro ts h
    obtain ⟨g1, g2⟩ := fin ts h
    refine ⟨g2, by unfold trees; rw [g1], ?_⟩
    rw [← hcs, g1, yields_cons, yield_node, yields_nil, List.append_nil]
  have k1 : kinds s1 = kindsOf toks := e2.1
  refine ⟨root, errs, cs, left, h1, h2, h3, fun t rest ht hk => ?_, fun hk => ?_, fun he => ?_⟩
  · have hx : ¬ (kindsOf toks).head?.isNone = true := by
      cases h : kindsOf toks with
      | nil =>
        rw [h] at hk
        have : t.yield = [] := (List.append_eq_nil_iff.mp hk.symm).1
        cases ht with
        | import_ => simp [yield_node, yields_cons, yield_tok] at this
        | value => simp [yield_node, yields_append, yields_cons, yield_tok] at this
        | type => simp [yield_node, yields_append, yields_cons, yield_tok] at this
      | cons => simp
    rw [if_neg hx] at e3
    have := kinds_length_le toks
    obtain ⟨r, s', g1, g2, g3⟩ := fwd_item (n := enough toks) ht (k1.trans hk) (by rw [k1]; unfold enough; omega)
    rw [g1] at e3
    simp only [Option.some.injEq, Prod.mk.injEq, true_and] at e3
    subst e3
    simpa [yields_cons] using out [t] g3
  · rw [if_pos (by simp [hk])] at e3
    subst e3
    obtain ⟨a, b, -⟩ := out [] (.refl _)
    exact ⟨a, b⟩
  · by_cases hx : (kindsOf toks).head?.isNone = true
    · have hk : kindsOf toks = [] := by
        cases h : kindsOf toks with
        | nil => rfl
        | cons => simp [h] at hx
      rw [if_pos hx] at e3
      subst e3
      exact .inl ⟨hk, (out [] (.refl _)).2.1⟩
    · rw [if_neg hx] at e3
      have clean : Clean s2 := by
        refine ⟨fun i a b hi => ?_⟩
        rw [← e4.2] at hi
        exact eventsToNode_err e6 (reorder_err e5 hi) he
      obtain ⟨t, ht, g⟩ := back_item.run _ _ e3 clean
      have := out [t] g.emits
      exact .inr ⟨t, ht, this.2.1, by simpa [yields_cons] using this.2.2⟩

/-- **C48**, one item, acceptance.  Reading from any tokens at any position reports no syntax error exactly if
there are no tokens (other than spaces and comments), or if they start with the tokens of an item of the grammar. -/
theorem accepts_iff_grammar (toks : List Tok) (start : Nat) :
    ∃ root errs, parseOneItem toks start = some (root, errs) ∧
      (errs = [] ↔ kindsOf toks = [] ∨ ∃ t rest, Item t ∧ kindsOf toks = t.yield ++ rest) := by
  obtain ⟨root, errs, cs, left, h1, h2, -, h4, h5, h6⟩ := parse_one toks start
  refine ⟨root, errs, h1, fun he => ?_, ?_⟩
  · rcases h6 he with h | ⟨t, ht, -, h⟩
    · exact .inl h.1
    · exact .inr ⟨t, kindsOf left, ht, by rw [h2, kindsOf_append, h]⟩
  · rintro (h | ⟨t, rest, ht, h⟩)
    · exact (h5 h).1
    · exact (h4 t rest ht h).1

/-- **C48**, one item, the tree.  Tokens that start with those of an item of the grammar are read as that item: the tree
is the grammar's tree with positions and trivia added, and exactly the tokens of the item are consumed. -/
theorem parses_as_grammar (toks : List Tok) (start : Nat) {t : Syn} {rest : List TokenKind} (ht : Item t) (hk : kindsOf toks = t.yield ++ rest) :
    ∃ root cs left, parseOneItem toks start = some (root, []) ∧ toks = cs ++ left ∧ root.leaves = place start cs ∧
      kindsOf cs = t.yield ∧ kindsOf left = rest ∧ trees root = [t] := by
  obtain ⟨root, errs, cs, left, h1, h2, h3, h4, -, -⟩ := parse_one toks start
  obtain ⟨rfl, g1, g2⟩ := h4 t rest ht hk
  refine ⟨root, cs, left, h1, h2, h3, g2, ?_, g1⟩
  rw [h2, kindsOf_append, g2] at hk
  exact List.append_cancel_left hk

/-! ### No ambiguity -/

/-- Tokens with these kinds. -/
def mkToks (ks : List TokenKind) : List Tok := ks.map fun k => ⟨.token k, []⟩

theorem kindsOf_mk (ks : List TokenKind) : kindsOf (mkToks ks) = ks := by
  induction ks with
  | nil => rfl
  | cons k ks ih => simpa [mkToks, kindsOf] using ih

/-- **C48**, unambiguity of items: no sequence of tokens starts with two different items, or with one item in two ways. -/
theorem item_unique {t t' : Syn} {r r' : List TokenKind} (ht : Item t) (ht' : Item t') (h : t.yield ++ r = t'.yield ++ r') : t = t' ∧ r = r' := by
  obtain ⟨root, cs, left, h1, -, -, h4, -, h6⟩ := parses_as_grammar (mkToks (t.yield ++ r)) 0 ht (kindsOf_mk _)
  obtain ⟨root', cs', left', g1, -, -, g4, -, g6⟩ := parses_as_grammar (mkToks (t.yield ++ r)) 0 ht' ((kindsOf_mk _).trans h)
  rw [h1] at g1
  simp only [Option.some.injEq, Prod.mk.injEq, and_true] at g1
  subst g1
  rw [h6] at g6
  have e : t = t' := by simpa using g6
  subst e
  exact ⟨rfl, List.append_cancel_left h⟩

/-- **C48**, unambiguity of expressions: the precedence and associativity of operators, the scope of `let`, `if`, `match` and
lambdas and the grouping of applications are determined by the tokens. -/
theorem expr_unique {t t' : Syn} (ht : Ex t) (ht' : Ex t') (h : t.yield = t'.yield) : t = t' := by
  have a := Item.value (x := []) (ann := []) .none .none ht
  have b := Item.value (x := []) (ann := []) .none .none ht'
  have := (item_unique (r := []) (r' := []) a b (by simp [yield_node, yields_cons, yield_tok, yield_nm, h])).1
  simpa using this

/-- The same for types. -/
theorem type_unique {t t' : Syn} (ht : Ty t) (ht' : Ty t') (h : t.yield = t'.yield) : t = t' := by
  have v : Ex (.node .numberExpr [.tok .number]) := .op (.app (.atom .number))
  have a := Item.value (x := []) .none (.some ht) v
  have b := Item.value (x := []) .none (.some ht') v
  have := (item_unique (r := []) (r' := []) a b (by simp [yield_node, yields_cons, yield_tok, yield_nm, h])).1
  simpa using this

/-! ### Whole programs -/

section
variable {S D I : Type}

/-- A round of the driver, with what it read. -/
theorem round_reads {p : Phases S D I} (hp : p.Lawful) {r src} {c : Comp S D I} {cs left} (h : Covers p r src c.items cs left)
    (hne : p.compiledLength c.items ≠ src.length) :
    ∃ c' i ds rest, p.round r src c = some c' ∧ c'.items = c.items ++ [i] ∧ left = ds ++ rest ∧ parseOneItem left (bytes cs) = some (p.syn i, p.parseErrors i) ∧
      (p.syn i).leaves = place (bytes cs) ds ∧ Covers p r src c'.items (cs ++ ds) rest ∧ p.compiledLength c.items < p.compiledLength c'.items := by
  have hdrop : lex r (src.drop (p.compiledLength c.items)) = left := by rw [h.len]; exact lex_drop r cs left src h.toks
  obtain ⟨c', cs', left', h1, h2, h3, -⟩ := round_covers hp h hne
  obtain ⟨root, errs, ds, rest, e1, e2, e3, -⟩ := parse_total left (p.compiledLength c.items)
  have h1' := h1
  unfold Phases.round at h1'
  simp only [hdrop, e1, Option.map_some, Option.some.injEq] at h1'
  have hit : ∃ i, c'.items = c.items ++ [i] ∧ p.syn i = root ∧ p.parseErrors i = errs :=
    ⟨_, by rw [← h1'], by rw [hp.syn_check, hp.syn_resolve, hp.syn_parsed], by rw [hp.err_check, hp.err_resolve, hp.err_parsed]⟩
  obtain ⟨i, i1, i2, i3⟩ := hit
  refine ⟨c', i, ds, rest, h1, i1, e2, by rw [i2, i3, ← h.len]; exact e1, by rw [i2, ← h.len]; exact e3, ?_, h3⟩
  have hl : (place 0 cs').length = (place 0 (cs ++ ds)).length := by
    rw [← h2.leaves, i1, List.flatMap_append, h.leaves, List.flatMap_cons, List.flatMap_nil, List.append_nil, i2, e3, place_append, h.len, Nat.zero_add]
  have pl : ∀ (ts : List Tok) n, (place n ts).length = ts.length := by
    intro ts
    induction ts with
    | nil => intro _; rfl
    | cons t ts ih => intro n; simp [place, ih]
  rw [pl, pl] at hl
  have hb : cs' ++ left' = (cs ++ ds) ++ rest := by rw [← h2.toks, h.toks, e2, List.append_assoc]
  obtain ⟨g1, g2⟩ := List.append_inj hb hl
  rw [← g1, ← g2]; exact h2

/-- What rounds preserve, the driver preserves. -/
theorem loop_inv {p : Phases S D I} (hp : p.Lawful) {r src offset} {Inv : List I → List Tok → List Tok → Prop}
    (step : ∀ items cs i ds rest, Inv items cs (ds ++ rest) → parseOneItem (ds ++ rest) (bytes cs) = some (p.syn i, p.parseErrors i) →
      (p.syn i).leaves = place (bytes cs) ds → Inv (items ++ [i]) (cs ++ ds) rest) :
    ∀ n (c : Comp S D I) {cs left}, Covers p r src c.items cs left → Inv c.items cs left → src.length - p.compiledLength c.items < n →
    ∃ c' cs' left', p.loop r src offset n c = some c' ∧ Covers p r src c'.items cs' left' ∧ Inv c'.items cs' left'
  | 0, c, _, _, _, _, h => absurd h (Nat.not_lt_zero _)
  | n + 1, c, cs, left, h, hI, hn => by
    unfold Phases.loop
    by_cases hs : offset ≤ p.compiledLength c.items ∨ p.compiledLength c.items = src.length
    · rw [if_pos hs]; exact ⟨c, cs, left, rfl, h, hI⟩
    · rw [if_neg hs]
      obtain ⟨c1, i, ds, rest, h1, h2, rfl, h4, h5, h6, h7⟩ := round_reads hp h (fun e => hs (.inr e))
      have := h6.le
      have hI1 := step _ _ i ds rest hI h4 h5
      rw [← h2] at hI1
      obtain ⟨c2, cs2, left2, g1, g2, g3⟩ := loop_inv hp step n c1 h6 hI1 (by omega)
      exact ⟨c2, cs2, left2, by rw [h1]; exact g1, g2, g3⟩

theorem compileUpTo_inv {p : Phases S D I} (hp : p.Lawful) {r src offset} {Inv : List I → List Tok → List Tok → Prop}
    (step : ∀ items cs i ds rest, Inv items cs (ds ++ rest) → parseOneItem (ds ++ rest) (bytes cs) = some (p.syn i, p.parseErrors i) →
      (p.syn i).leaves = place (bytes cs) ds → Inv (items ++ [i]) (cs ++ ds) rest) {items cs left} (h : Covers p r src items cs left) (hI : Inv items cs left) :
    ∃ items' cs' left', p.compileUpTo r src offset items = some items' ∧ Covers p r src items' cs' left' ∧ Inv items' cs' left' := by
  unfold Phases.compileUpTo
  by_cases hs : offset ≤ p.compiledLength items
  · rw [if_pos hs]; exact ⟨items, cs, left, rfl, h, hI⟩
  · rw [if_neg hs]
    obtain ⟨c', cs', left', h1, h2, h3⟩ := loop_inv hp (offset := offset) step (src.length + 1)
      { scope := items.foldl p.addScope p.scope0, defs := items.foldl p.addDefs p.defs0, items } h hI (by simp only; omega)
    exact ⟨c'.items, cs', left', by simp [h1], h2, h3⟩

theorem requests_inv {p : Phases S D I} (hp : p.Lawful) {r src} {Inv : List I → List Tok → List Tok → Prop}
    (step : ∀ items cs i ds rest, Inv items cs (ds ++ rest) → parseOneItem (ds ++ rest) (bytes cs) = some (p.syn i, p.parseErrors i) →
      (p.syn i).leaves = place (bytes cs) ds → Inv (items ++ [i]) (cs ++ ds) rest) : ∀ (os : List Nat) {items cs left}, Covers p r src items cs left → Inv items cs left →
    ∃ items' cs' left', p.requests r src os items = some items' ∧ Covers p r src items' cs' left' ∧ Inv items' cs' left'
  | [], items, cs, left, h, hI => ⟨items, cs, left, rfl, h, hI⟩
  | o :: os, items, cs, left, h, hI => by
    obtain ⟨items1, cs1, left1, h1, h2, h3⟩ := compileUpTo_inv hp (offset := o) step h hI
    obtain ⟨items2, cs2, left2, g1, g2, g3⟩ := requests_inv hp step os h2 h3
    exact ⟨items2, cs2, left2, by simp only [Phases.requests, h1, Option.bind_some]; exact g1, g2, g3⟩

/-- The invariant: what was read is in the grammar if it was read without errors, and what is in the grammar is read so. -/
structure InGrammar (p : Phases S D I) (all : List TokenKind) (items : List I) (cs left : List Tok) : Prop where
  split : all = kindsOf cs ++ kindsOf left
  sound : (∀ i ∈ items, p.parseErrors i = []) → (∀ t ∈ items.flatMap (fun i => trees (p.syn i)), Item t) ∧
    kindsOf cs = (items.flatMap (fun i => trees (p.syn i))).flatMap Syn.yield
  complete : ∀ ts : List Syn, (∀ t ∈ ts, Item t) → all = ts.flatMap Syn.yield → (∀ i ∈ items, p.parseErrors i = []) ∧
    ∃ ts2, ts = items.flatMap (fun i => trees (p.syn i)) ++ ts2 ∧ kindsOf left = ts2.flatMap Syn.yield

theorem inGrammar_step {p : Phases S D I} {all} : ∀ items cs i ds rest, InGrammar p all items cs (ds ++ rest) →
    parseOneItem (ds ++ rest) (bytes cs) = some (p.syn i, p.parseErrors i) → (p.syn i).leaves = place (bytes cs) ds → InGrammar p all (items ++ [i]) (cs ++ ds) rest := by
  intro items cs i ds rest h hp hl
  obtain ⟨root, errs, ds', rest', h1, h2, h3, h4, h5, h6⟩ := parse_one (ds ++ rest) (bytes cs)
  rw [hp] at h1
  simp only [Option.some.injEq, Prod.mk.injEq] at h1
  obtain ⟨rfl, rfl⟩ := h1
  have hds : kindsOf ds' = kindsOf ds := by rw [← tokKinds_place ds' (bytes cs), ← h3, hl, tokKinds_place]
  rw [hds] at h4 h6
  have hfm : (items ++ [i]).flatMap (fun i => trees (p.syn i)) = items.flatMap (fun i => trees (p.syn i)) ++ trees (p.syn i) := by simp
  refine ⟨by rw [h.split, kindsOf_append, kindsOf_append, List.append_assoc], fun he => ?_, fun ts hts hall => ?_⟩
  · obtain ⟨g1, g2⟩ := h.sound fun j hj => he j (by simp [hj])
    rw [hfm, kindsOf_append, g2, List.flatMap_append]
    rcases h6 (he i (by simp)) with ⟨a, b⟩ | ⟨t, ht, b, c⟩
    · rw [kindsOf_append] at a
      rw [b, (List.append_eq_nil_iff.mp a).1]
      exact ⟨by simpa using g1, by simp⟩
    · rw [b, c]
      refine ⟨fun t' ht' => ?_, by simp⟩
      rcases List.mem_append.mp ht' with h | h
      · exact g1 t' h
      · rw [List.mem_singleton] at h; rw [h]; exact ht
  · obtain ⟨g1, ts2, g2, g3⟩ := h.complete ts hts hall
    cases ts2 with
    | nil =>
      obtain ⟨a, b⟩ := h5 g3
      rw [kindsOf_append] at g3
      refine ⟨?_, [], ?_, (List.append_eq_nil_iff.mp g3).2⟩
      · intro j hj
        rcases List.mem_append.mp hj with hj | hj
        · exact g1 j hj
        · rw [List.mem_singleton] at hj; rw [hj]; exact a
      · rw [hfm, b, g2]; simp
    | cons t ts2 =>
      have ht : Item t := hts t (by rw [g2]; simp)
      rw [List.flatMap_cons] at g3
      obtain ⟨a, b, c⟩ := h4 t _ ht g3
      rw [kindsOf_append, c] at g3
      refine ⟨?_, ts2, ?_, List.append_cancel_left g3⟩
      · intro j hj
        rcases List.mem_append.mp hj with hj | hj
        · exact g1 j hj
        · rw [List.mem_singleton] at hj; rw [hj]; exact a
      · rw [hfm, b, g2]; simp

/-- **C48**, whole programs.  Whatever the lexer, the analyses and the history of requests: after compiling to the end, no item
has a syntax error exactly if the tokens of the source are those of a list of items of the grammar; and then the trees of the
program are that list. -/
theorem program_iff_grammar {p : Phases S D I} (hp : p.Lawful) (r : LexRules) (src : List UInt8) (os : List Nat) :
    ∃ before items, p.requests r src os [] = some before ∧ p.compileUpTo r src src.length before = some items ∧
      ((∀ i ∈ items, p.parseErrors i = []) ↔ ∃ ts : List Syn, (∀ t ∈ ts, Item t) ∧ kindsOf (lex r src) = ts.flatMap Syn.yield) ∧
      ∀ ts : List Syn, (∀ t ∈ ts, Item t) → kindsOf (lex r src) = ts.flatMap Syn.yield → items.flatMap (fun i => trees (p.syn i)) = ts := by
  have h0 : InGrammar p (kindsOf (lex r src)) ([] : List I) [] (lex r src) :=
    ⟨rfl, fun _ => ⟨by simp, rfl⟩, fun ts _ h => ⟨by simp, ts, by simp, h⟩⟩
  obtain ⟨before, cs, left, h1, h2, h3⟩ := requests_inv hp (Inv := InGrammar p (kindsOf (lex r src))) inGrammar_step os (.nil p r src) h0
  obtain ⟨items, cs', left', g1, g2, g3⟩ := compileUpTo_inv hp (offset := src.length) (Inv := InGrammar p (kindsOf (lex r src))) inGrammar_step h2 h3
  have hlen : p.compiledLength items = src.length := by
    obtain ⟨items', cs'', left'', k1, k2, k3, -⟩ := compileUpTo_covers hp (offset := src.length) h2
    rw [g1] at k1
    cases k1
    have := g2.le
    rcases k3 with h | h <;> omega
  have hleft : left' = [] := by
    cases left' with
    | nil => rfl
    | cons t ts =>
      have h3 := bytes_lex r src
      rw [g2.toks, bytes_append, bytes_cons, ← g2.len, hlen] at h3
      have := lex_pos r src.length src (Nat.le_refl _) t (by rw [g2.toks]; simp)
      omega
  have hcs : kindsOf (lex r src) = kindsOf cs' := by rw [g2.toks, hleft, List.append_nil]
  have exact' : ∀ ts : List Syn, (∀ t ∈ ts, Item t) → kindsOf (lex r src) = ts.flatMap Syn.yield → items.flatMap (fun i => trees (p.syn i)) = ts := by
    intro ts hts hall
    obtain ⟨-, ts2, k1, k2⟩ := g3.complete ts hts hall
    have : ts2 = [] := by
      cases ts2 with
      | nil => rfl
      | cons t ts2 =>
        rw [hleft] at k2
        have ht : Item t := hts t (by rw [k1]; simp)
        have e : t.yield = [] := by
          rw [List.flatMap_cons] at k2
          exact (List.append_eq_nil_iff.mp k2.symm).1
        cases ht with
        | import_ => simp [yield_node, yields_cons, yield_tok] at e
        | value => simp [yield_node, yields_append, yields_cons, yield_tok] at e
        | type => simp [yield_node, yields_append, yields_cons, yield_tok] at e
    rw [k1, this, List.append_nil]
  refine ⟨before, items, h1, g1, ⟨fun he => ?_, ?_⟩, exact'⟩
  · obtain ⟨k1, k2⟩ := g3.sound he
    exact ⟨_, k1, by rw [hcs]; exact k2⟩
  · rintro ⟨ts, hts, hall⟩
    exact (g3.complete ts hts hall).1

end

/-! ### What the grammar says about operators -/

/-- A binary operation. -/
def binop (a : Syn) (o : TokenKind) (b : Syn) : Syn := .node .binaryExpr [a, .node .binaryOp [.tok o], b]

/-- `let name = e;` -/
def letItem (e : Syn) : Syn := .node .valueItem [.tok .let_, nm, .tok .equals, e, .tok .semicolon]

theorem letItem_item {e} (h : Ex e) : Item (letItem e) := by
  simpa [letItem] using Item.value (x := []) (ann := []) .none .none h

/-- **C48**, two operators: `a o₁ b o₂ c` is read as `(a o₁ b) o₂ c` if the second operator is not tighter than the first, and as
`a o₁ (b o₂ c)` otherwise, for all operators and all operands. -/
theorem operators_group {o₁ o₂ : TokenKind} {l₁ l₂ : Nat} {a b c : Syn} (h₁ : level o₁ = some l₁) (h₂ : level o₂ = some l₂)
    (ha : App a) (hb : App b) (hc : App c) (toks : List Tok) (start : Nat)
    (hk : kindsOf toks = [.let_, .ident, .equals] ++ a.yield ++ [o₁] ++ b.yield ++ [o₂] ++ c.yield ++ [.semicolon]) :
    ∃ root, parseOneItem toks start = some (root, []) ∧
      trees root = [letItem (if l₂ ≤ l₁ then binop (binop a o₁ b) o₂ c else binop a o₁ (binop b o₂ c))] := by
  have key : ∀ e, Ex e → e.yield = a.yield ++ [o₁] ++ b.yield ++ [o₂] ++ c.yield → ∃ root, parseOneItem toks start = some (root, []) ∧ trees root = [letItem e] := by
    intro e he hy
    obtain ⟨root, _, _, h, -, -, -, -, h'⟩ := parses_as_grammar toks start (t := letItem e) (rest := []) (letItem_item he)
      (by rw [hk]; simp [letItem, yield_node, yields_cons, yield_tok, yield_nm, hy])
    exact ⟨root, h, h'⟩
  split
  · rename_i h
    exact key _ (.op (.bin h₂ (Nat.zero_le _) (.bin h₁ h (.app ha) (.app hb)) (.app hc))) (by simp [binop, yield_node, yields_cons, yield_tok])
  · rename_i h
    exact key _ (.op (.bin h₁ (Nat.zero_le _) (.app ha) (.bin h₂ (by omega) (.app hb) (.app hc)))) (by simp [binop, yield_node, yields_cons, yield_tok])

/-- Arrows of function types group to the right. -/
theorem arrows_group {a b c : Syn} (ha : AppTy a) (hb : AppTy b) (hc : AppTy c) {t : Syn} (ht : Ty t)
    (hy : t.yield = a.yield ++ [.arrow] ++ b.yield ++ [.arrow] ++ c.yield) :
    t = .node .fnType [a, .tok .arrow, .node .fnType [b, .tok .arrow, c]] :=
  type_unique ht (.fn ha (.fn hb (.app hc))) (by rw [hy]; simp [yield_node, yields_cons, yield_tok])

/-! ### Examples -/

/-- `1` -/
def one : Syn := .node .numberExpr [.tok .number]

theorem one_app : App one := .atom .number

/-- `let x = 1 - 1 - 1 * f x;` is read as `(1 - 1) - (1 * f x)`. -/
example : Ex (binop (binop one .minus one) .minus (binop one .star (.node .applyExpr [.node .nameExpr [nm], .node .nameExpr [nm]]))) :=
  .op (.bin (l := 3) rfl (by decide) (.bin (l := 3) rfl (by decide) (.app one_app) (.app one_app)) (.bin (l := 4) rfl (by decide) (.app one_app) (.app (.app (.atom .name) .name))))

example : ∃ root, parseOneItem (mkToks [.let_, .ident, .equals, .number, .minus, .number, .minus, .number, .star, .ident, .ident, .semicolon]) 0 = some (root, []) ∧
    trees root = [letItem (binop (binop one .minus one) .minus (binop one .star (.node .applyExpr [.node .nameExpr [nm], .node .nameExpr [nm]])))] := by
  obtain ⟨root, _, _, h, -, -, -, -, h'⟩ := parses_as_grammar (mkToks [.let_, .ident, .equals, .number, .minus, .number, .minus, .number, .star, .ident, .ident, .semicolon]) 0
    (t := letItem (binop (binop one .minus one) .minus (binop one .star (.node .applyExpr [.node .nameExpr [nm], .node .nameExpr [nm]])))) (rest := [])
    (letItem_item (.op (.bin (l := 3) rfl (by decide) (.bin (l := 3) rfl (by decide) (.app one_app) (.app one_app)) (.bin (l := 4) rfl (by decide) (.app one_app) (.app (.app (.atom .name) .name))))))
    (by rw [kindsOf_mk]; rfl)
  exact ⟨root, h, h'⟩

/-- Grouping the two subtractions the other way is not an expression of the grammar. -/
example : ¬ Ex (binop one .minus (binop one .minus one)) := by
  intro h
  have := expr_unique h (.op (.bin (l := 3) rfl (by decide) (.bin (l := 3) rfl (by decide) (.app one_app) (.app one_app)) (.app one_app))
    : Ex (binop (binop one .minus one) .minus one)) rfl
  simp [binop, one] at this

/-- `let x = 1 +;` is not in the grammar, and has a syntax error. -/
example : ∃ root errs, parseOneItem (mkToks [.let_, .ident, .equals, .number, .plus, .semicolon]) 0 = some (root, errs) ∧ errs ≠ [] := by
  have h : ((parseOneItem (mkToks [.let_, .ident, .equals, .number, .plus, .semicolon]) 0).map fun r => r.2.length) = some 1 := by decide +kernel
  rw [Option.map_eq_some_iff] at h
  obtain ⟨⟨root, errs⟩, h1, h2⟩ := h
  exact ⟨root, errs, h1, fun e => by rw [e] at h2; cases h2⟩

example : ¬ ∃ t rest, Item t ∧ [TokenKind.let_, .ident, .equals, .number, .plus, .semicolon] = t.yield ++ rest := by
  intro h
  obtain ⟨root, errs, h1, h2⟩ := accepts_iff_grammar (mkToks [.let_, .ident, .equals, .number, .plus, .semicolon]) 0
  have e := h2.mpr (.inr (by rw [kindsOf_mk]; exact h))
  have h : ((parseOneItem (mkToks [.let_, .ident, .equals, .number, .plus, .semicolon]) 0).map fun r => r.2.length) = some 1 := by decide +kernel
  rw [h1, e] at h
  cases h

/-- `export type t a = | A rec (int -> a) | B;` is in the grammar. -/
example : Item (.node .typeItem [.tok .export_, .tok .type, nm, .node .typeParams [nm], .tok .equals,
    .node .typeCase [.tok .pipe, nm, .node .recField [.tok .rec_], .node .typeField [.node .parenType [.tok .leftParen,
      .node .fnType [.node .intType [.tok .int], .tok .arrow, .node .namedType [nm]], .tok .rightParen]]],
    .node .typeCase [.tok .pipe, nm], .tok .semicolon]) := by
  have := Item.type (x := [.tok .export_]) (xc := []) (p := [.tok .pipe])
    (cs := [.node .typeCase [.tok .pipe, nm]]) .some (.some (n := 0)) .none .some
    (.mk (fs := [.node .recField [.tok .rec_], .node .typeField [.node .parenType [.tok .leftParen, .node .fnType [.node .intType [.tok .int], .tok .arrow, .node .namedType [nm]], .tok .rightParen]]])
      (by
        intro f hf
        simp only [List.mem_cons, List.not_mem_nil, or_false] at hf
        rcases hf with rfl | rfl
        · exact .rec_
        · exact .ty (.paren (.fn (.atom .int) (.app (.atom (.named .plain)))))))
    (by
      intro d hd
      simp only [List.mem_cons, List.not_mem_nil, or_false] at hd
      exact ⟨[nm], .mk (fs := []) (by simp), hd⟩)
  simpa using this

end Tic.Grammar
