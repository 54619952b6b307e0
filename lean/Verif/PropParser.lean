/-
C20, C21, C22: the parser and the driver.
-/
import Verif.Driver

namespace Tic.Parser

/-! ### The lexer -/

theorem lex_cons (r : LexRules) (b : UInt8) (bs : List UInt8) : ∃ k n, lex r (b :: bs) = ⟨k, b :: bs.take n⟩ :: lex r (bs.drop n) := by
  rw [lex]; exact ⟨_, _, rfl⟩

/-- The text of a list of tokens. -/
def textOf (ts : List Tok) : List UInt8 := ts.flatMap Tok.text

/-- The tokens of a source text make it up. -/
theorem text_lex (r : LexRules) : ∀ (n : Nat) (src : List UInt8), src.length ≤ n → textOf (lex r src) = src
  | _, [], _ => by rw [lex]; rfl
  | 0, b :: bs, h => by simp at h
  | n + 1, b :: bs, h => by
    obtain ⟨k, m, e⟩ := lex_cons r b bs
    rw [e]
    have := text_lex r n (bs.drop m) (by simp at h ⊢; omega)
    simp only [textOf, List.flatMap_cons] at this ⊢
    rw [this]; simp

theorem lex_pos (r : LexRules) : ∀ (n : Nat) (src : List UInt8), src.length ≤ n → ∀ t ∈ lex r src, 0 < t.text.length
  | _, [], _ => by rw [lex]; simp
  | 0, b :: bs, h => by simp at h
  | n + 1, b :: bs, h => by
    obtain ⟨k, m, e⟩ := lex_cons r b bs
    rw [e]
    intro t ht
    rcases List.mem_cons.mp ht with rfl | ht
    · simp
    · exact lex_pos r n (bs.drop m) (by simp at h ⊢; omega) t ht

theorem bytes_text (ts : List Tok) : bytes ts = (textOf ts).length := by
  induction ts with
  | nil => rfl
  | cons t ts ih => simp only [bytes_cons, textOf, List.flatMap_cons, List.length_append, ih]

theorem bytes_lex (r : LexRules) (src : List UInt8) : bytes (lex r src) = src.length := by
  rw [bytes_text, text_lex r src.length src (Nat.le_refl _)]

/-- Lexing again from a token boundary gives the rest of the tokens. -/
theorem lex_drop (r : LexRules) : ∀ (cs left : List Tok) (src : List UInt8), lex r src = cs ++ left → lex r (src.drop (bytes cs)) = left
  | [], left, src, h => by simpa [bytes] using h
  | c :: cs, left, [], h => by rw [lex] at h; simp at h
  | c :: cs, left, b :: bs, h => by
    obtain ⟨k, m, e⟩ := lex_cons r b bs
    rw [e] at h
    simp only [List.cons_append, List.cons.injEq] at h
    have := lex_drop r cs left (bs.drop m) h.2
    rw [bytes_cons, ← h.1]
    simp only [List.length_cons]
    have hd : (b :: bs).drop ((bs.take m).length + 1 + bytes cs) = (bs.drop m).drop (bytes cs) := by
      have : (bs.take m).length + 1 + bytes cs = ((bs.take m).length + bytes cs) + 1 := by omega
      rw [this, List.drop_succ_cons, List.drop_drop]
      by_cases hm : m ≤ bs.length
      · rw [List.length_take_of_le hm]
      · rw [List.drop_of_length_le (by simp; omega), List.drop_of_length_le (by omega)]
    rw [hd, this]

/-! ### One item -/

/-- `C20`/`C21` for one item.  Parsing from any tokens, at any position, succeeds: it does not panic.
The tree it gives covers a prefix `cs` of the tokens, leaf for leaf, at the right positions; spans
are nested; node ids are distinct; the prefix is not empty unless there are no tokens; and every
diagnostic is inside the text. -/
theorem parse_total (toks : List Tok) (start : Nat) :
    ∃ root errs cs left, parseOneItem toks start = some (root, errs) ∧ toks = cs ++ left ∧
      root.leaves = place start cs ∧ root.full = (start, start + bytes cs) ∧ root.Wf ∧ (∃ n, root.ids = List.range n) ∧
      (toks ≠ [] → cs ≠ []) ∧
      (∀ d ∈ errs, start ≤ d.1 ∧ d.1 ≤ d.2 ∧ d.2 ≤ start + bytes toks) := by
  have main : Ok (do
      let eof ← atEof
      if eof then pure () else item (enough toks)
      atEof) { sol := true, toks := toks, off := start, pos := start, events := [], hints := [], expected := [] }
      fun eatAll s3 => ∃ cs D, toks = cs ++ s3.toks ∧ s3.events = D ∧ Links 0 D ∧ Bal D ∧ toksOf D = kindsOf cs ∧
        (eatAll = true → kindsOf s3.toks = []) ∧ (kindsOf toks ≠ [] → kindsOf cs ≠ []) ∧ (kindsOf toks = [] → eatAll = true) ∧
        (∀ a b, Event.error a b ∈ D → start ≤ a ∧ a ≤ b ∧ b ≤ start + bytes toks) := by
    refine ok_bind (ok_bind (ok_peek fun r s1 hp => ok_pure ?_))
    have fin : ∀ s2, Adv { sol := true, toks := toks, off := start, pos := start, events := [], hints := [], expected := [] } s2 →
        (kindsOf toks ≠ [] → cnt s2 < (kindsOf toks).length) → Ok atEof s2 fun eatAll s3 => ∃ cs D, toks = cs ++ s3.toks ∧ s3.events = D ∧ Links 0 D ∧ Bal D ∧ toksOf D = kindsOf cs ∧
          (eatAll = true → kindsOf s3.toks = []) ∧ (kindsOf toks ≠ [] → kindsOf cs ≠ []) ∧ (kindsOf toks = [] → eatAll = true) ∧
          (∀ a b, Event.error a b ∈ D → start ≤ a ∧ a ≤ b ∧ b ≤ start + bytes toks) := by
      intro s2 h2 hlt
      refine ok_bind (ok_peek fun r' s3 hp' => ok_pure ?_)
      have h3 := h2.trans hp'.adv
      obtain ⟨cs, D, g1, g2, g3, g4, g5, g6, g7, g8⟩ := h3
      simp only [List.length_nil, List.nil_append] at g1 g2 g3 g4 g8
      refine ⟨cs, D, g1, g3, g4, g5, g6, ?_, ?_, ?_, g8 (Nat.le_refl _)⟩
      · intro he
        cases r' with
        | none => rw [hp'.eof rfl]; rfl
        | some k => simp at he
      · intro hne hc
        have h4 := hlt hne
        have h5 := hp'.adv.cnt_le
        rw [g1, kindsOf_append, hc] at h4
        simp only [List.nil_append] at h4
        unfold cnt at h4 h5
        omega
      · intro hk
        cases r' with
        | none => rfl
        | some k =>
          obtain ⟨tx, rs, hx⟩ := hp'.tok k rfl
          rw [g1, kindsOf_append, hx] at hk
          simp [kindsOf] at hk
    cases r with
    | none =>
      simp only [Option.isNone_none, if_true]
      refine fin s1 hp.adv fun hne => ?_
      have := hp.eof rfl
      simp only [cnt, this, kindsOf, List.length_nil]
      exact List.length_pos_iff.mpr hne
    | some k =>
      simp only [Option.isNone_some, Bool.false_eq_true, if_false]
      have hc : cnt s1 ≤ (kindsOf toks).length := hp.adv.cnt_le
      have hlen : ∀ ts : List Tok, (kindsOf ts).length ≤ ts.length := by
        intro ts
        induction ts with
        | nil => simp [kindsOf]
        | cons t ts ih => simp only [kindsOf]; split <;> simp <;> omega
      have := hlen toks
      refine ok_bind ((ok_item (hp.tok k rfl) (by unfold enough; omega)).mono fun _ s2 h2 => fin s2 (hp.adv.trans h2.adv) fun _ => ?_)
      have := h2.2
      omega
  obtain ⟨eatAll, s3, hrun, cs, D, m1, m2, m3, m4, m5, m6, m7, m8, m9⟩ := main
  obtain ⟨out, o1, o2, o3, o4, o5, o6⟩ := reorder_ok m3 m4
  have hkt : kindsOf toks = toksOf out ++ kindsOf s3.toks := by rw [o4, m5, m1, kindsOf_append]
  obtain ⟨root, errs, cs', left, e1, e2, e3, e4, e5, e6, e7, e8, e9⟩ := eventsToNode_ok (start := start) (eatAll := eatAll)
    (P := fun a b => start ≤ a ∧ a ≤ b ∧ b ≤ start + bytes toks) o2 o3 hkt m6 o5 (fun a b h => m9 a b (o6 a b h))
  refine ⟨root, errs, cs', left, ?_, e2, e5, e4, e3, e6, ?_, e9⟩
  · unfold parseOneItem
    simp only [bind, Option.bind, StateT.bind, pure, StateT.pure] at hrun ⊢
    revert hrun
    generalize hs0 : atEof _ = x
    cases x with
    | none => intro h; simp at h
    | some p =>
      obtain ⟨eof, s1⟩ := p
      simp only
      intro h
      cases eof with
      | true =>
        simp only [if_true] at h ⊢
        rw [h]
        simp only [m2, o1, e1]
      | false =>
        simp only [Bool.false_eq_true, if_false] at h ⊢
        change (item (enough toks) s1).bind (fun p => atEof p.2) = _ at h
        generalize hi : item (enough toks) s1 = y at h ⊢
        cases y with
        | none => simp at h
        | some q =>
          simp only [Option.bind_some] at h ⊢
          rw [h]
          simp only [m2, o1, e1]
  · intro hne
    by_cases hk : kindsOf toks = []
    · have := e7 (m8 hk)
      rw [this, List.append_nil] at e2
      rw [← e2]; exact hne
    · refine e8 ?_
      rw [o4, m5]; exact m7 hk

/-! ### The driver -/

section
variable {S D I : Type}

/-- The items cover the source up to a token boundary: their leaves are the first tokens of the
source, in place. -/
structure Covers (p : Phases S D I) (r : LexRules) (src : List UInt8) (items : List I) (cs left : List Tok) : Prop where
  toks : lex r src = cs ++ left
  leaves : items.flatMap (fun i => (p.syn i).leaves) = place 0 cs
  len : p.compiledLength items = bytes cs
  wf : ∀ i ∈ items, (p.syn i).Wf
  errs : ∀ i ∈ items, ∀ d ∈ p.parseErrors i, (p.syn i).full.1 ≤ d.1 ∧ d.1 ≤ d.2 ∧ d.2 ≤ src.length
  tiles : Tiles 0 (bytes cs) (items.map p.syn)

theorem Covers.nil (p : Phases S D I) (r src) : Covers p r src [] [] (lex r src) :=
  ⟨rfl, rfl, rfl, by simp, by simp, rfl⟩

theorem Covers.le {p : Phases S D I} {r src items cs left} (h : Covers p r src items cs left) : p.compiledLength items ≤ src.length := by
  rw [h.len, ← bytes_lex r src, h.toks, bytes_append]; omega

/-- One round takes in at least one more token. -/
theorem round_covers {p : Phases S D I} (hp : p.Lawful) {r src} {c : Comp S D I} {cs left} (h : Covers p r src c.items cs left)
    (hne : p.compiledLength c.items ≠ src.length) :
    ∃ c' cs' left', p.round r src c = some c' ∧ Covers p r src c'.items cs' left' ∧
      p.compiledLength c.items < p.compiledLength c'.items ∧ ∃ i, c'.items = c.items ++ [i] := by
  have hdrop : lex r (src.drop (p.compiledLength c.items)) = left := by rw [h.len]; exact lex_drop r cs left src h.toks
  have hlne : left ≠ [] := by
    rintro rfl
    apply hne
    rw [h.len, ← bytes_lex r src, h.toks]; simp
  obtain ⟨root, errs, ds, rest, e1, e2, e3, e4, e5, -, e7, e8⟩ := parse_total left (p.compiledLength c.items)
  have hds := e7 hlne
  have hpos : 0 < bytes ds := by
    cases ds with
    | nil => exact absurd rfl hds
    | cons d ds =>
      rw [bytes_cons]
      have : d ∈ lex r src := by rw [h.toks, e2]; simp
      have := lex_pos r src.length src (Nat.le_refl _) d this
      omega
  refine ⟨_, cs ++ ds, rest, by unfold Phases.round; simp only [hdrop, e1, Option.map_some]; rfl, ?_, ?_, _, rfl⟩
  · refine ⟨by rw [h.toks, e2, List.append_assoc], ?_, ?_, ?_, ?_, ?_⟩
    · simp only [List.flatMap_append, List.flatMap_cons, List.flatMap_nil, List.append_nil, hp.syn_check, hp.syn_resolve, hp.syn_parsed, h.leaves, e3]
      rw [place_append, h.len, Nat.zero_add]
    · simp only [Phases.compiledLength, List.getLast?_concat, hp.syn_check, hp.syn_resolve, hp.syn_parsed, e4]
      rw [bytes_append, ← h.len]; rfl
    · intro i hi
      rcases List.mem_append.mp hi with hi | hi
      · exact h.wf i hi
      · simp at hi; subst hi
        rw [hp.syn_check, hp.syn_resolve, hp.syn_parsed]; exact e5
    · intro i hi d hd
      rcases List.mem_append.mp hi with hi | hi
      · exact h.errs i hi d hd
      · simp at hi; subst hi
        rw [hp.err_check, hp.err_resolve, hp.err_parsed] at hd
        rw [hp.syn_check, hp.syn_resolve, hp.syn_parsed, e4]
        have := e8 d hd
        rw [← bytes_lex r src, h.toks, bytes_append]
        rw [h.len] at *
        simp only
        omega
    · rw [List.map_append, bytes_append]
      refine h.tiles.append ?_
      simp only [List.map_cons, List.map_nil, Tiles, hp.syn_check, hp.syn_resolve, hp.syn_parsed, e4, h.len]
      simp
  · simp only [Phases.compiledLength, List.getLast?_concat, hp.syn_check, hp.syn_resolve, hp.syn_parsed, e4]
    omega

theorem loop_covers {p : Phases S D I} (hp : p.Lawful) {r src offset} : ∀ n (c : Comp S D I) {cs left}, Covers p r src c.items cs left →
    src.length - p.compiledLength c.items < n →
    ∃ c' cs' left', p.loop r src offset n c = some c' ∧ Covers p r src c'.items cs' left' ∧
      (offset ≤ p.compiledLength c'.items ∨ p.compiledLength c'.items = src.length) ∧ ∃ more, c'.items = c.items ++ more
  | 0, c, _, _, _, h => absurd h (Nat.not_lt_zero _)
  | n + 1, c, cs, left, h, hn => by
    unfold Phases.loop
    by_cases hs : offset ≤ p.compiledLength c.items ∨ p.compiledLength c.items = src.length
    · rw [if_pos hs]; exact ⟨c, cs, left, rfl, h, hs, [], by simp⟩
    · rw [if_neg hs]
      obtain ⟨c1, cs1, left1, h1, h2, h3, i, h4⟩ := round_covers hp h (fun e => hs (.inr e))
      have := h2.le
      obtain ⟨c2, cs2, left2, g1, g2, g3, more, g4⟩ := loop_covers hp (offset := offset) n c1 h2 (by omega)
      exact ⟨c2, cs2, left2, by rw [h1]; exact g1, g2, g3, i :: more, by rw [g4, h4]; simp⟩

theorem compileUpTo_covers {p : Phases S D I} (hp : p.Lawful) {r src offset items cs left} (h : Covers p r src items cs left) :
    ∃ items' cs' left', p.compileUpTo r src offset items = some items' ∧ Covers p r src items' cs' left' ∧
      (offset ≤ p.compiledLength items' ∨ p.compiledLength items' = src.length) ∧ ∃ more, items' = items ++ more := by
  unfold Phases.compileUpTo
  by_cases hs : offset ≤ p.compiledLength items
  · rw [if_pos hs]; exact ⟨items, cs, left, rfl, h, .inl hs, [], by simp⟩
  · rw [if_neg hs]
    obtain ⟨c', cs', left', h1, h2, h3, more, h4⟩ := loop_covers hp (offset := offset) (src.length + 1)
      { scope := items.foldl p.addScope p.scope0, defs := items.foldl p.addDefs p.defs0, items } h (by simp only; omega)
    exact ⟨c'.items, cs', left', by simp [h1], h2, h3, more, h4⟩

theorem requests_covers {p : Phases S D I} (hp : p.Lawful) {r src} : ∀ (os : List Nat) {items cs left}, Covers p r src items cs left →
    ∃ items' cs' left', p.requests r src os items = some items' ∧ Covers p r src items' cs' left' ∧ ∃ more, items' = items ++ more
  | [], items, cs, left, h => ⟨items, cs, left, rfl, h, [], by simp⟩
  | o :: os, items, cs, left, h => by
    obtain ⟨items1, cs1, left1, h1, h2, -, more, h3⟩ := compileUpTo_covers hp (offset := o) h
    obtain ⟨items2, cs2, left2, g1, g2, more2, g3⟩ := requests_covers hp os h2
    exact ⟨items2, cs2, left2, by simp only [Phases.requests, h1, Option.bind_some]; exact g1, g2, more ++ more2, by rw [g3, h3]; simp⟩

/-- **C21.** For any source text, any lexer, any analyses and any history of requested positions,
the driver neither loops forever nor panics, items are only ever added, and it gets past every position
asked for or to the end of the text. -/
theorem compile_terminates {p : Phases S D I} (hp : p.Lawful) (r : LexRules) (src : List UInt8) (os : List Nat) (o : Nat) :
    ∃ before items more, p.requests r src os [] = some before ∧ p.compileUpTo r src o before = some items ∧ items = before ++ more ∧
      (o ≤ p.compiledLength items ∨ p.compiledLength items = src.length) := by
  obtain ⟨before, cs, left, h1, h2, -⟩ := requests_covers hp os (.nil p r src)
  obtain ⟨items, cs', left', g1, g2, g3, more, g4⟩ := compileUpTo_covers hp (offset := o) h2
  exact ⟨before, items, more, h1, g1, g4, g3⟩

/-- **C20.** After compiling to the end, the leaves of the items, in order, are exactly the tokens and
trivia of the source at their positions; the text of these is the source; the items follow each other
without gaps from the beginning to the end of the text; in every tree, the children of each node follow each other without gaps
and spans are nested; and every parser diagnostic is within the text. -/
theorem parse_lossless {p : Phases S D I} (hp : p.Lawful) (r : LexRules) (src : List UInt8) (os : List Nat) :
    ∃ before items, p.requests r src os [] = some before ∧ p.compileUpTo r src src.length before = some items ∧
      items.flatMap (fun i => (p.syn i).leaves) = place 0 (lex r src) ∧ textOf (lex r src) = src ∧
      Tiles 0 src.length (items.map p.syn) ∧ (∀ i ∈ items, (p.syn i).Wf) ∧
      (∀ i ∈ items, ∀ d ∈ p.parseErrors i, (p.syn i).full.1 ≤ d.1 ∧ d.1 ≤ d.2 ∧ d.2 ≤ src.length) := by
  obtain ⟨before, cs, left, h1, h2, -⟩ := requests_covers hp os (.nil p r src)
  obtain ⟨items, cs', left', g1, g2, g3, more, g4⟩ := compileUpTo_covers hp (offset := src.length) h2
  have hlen : p.compiledLength items = src.length := by
    have := g2.le
    rcases g3 with h | h <;> omega
  have hleft : left' = [] := by
    cases left' with
    | nil => rfl
    | cons t ts =>
      have h3 := bytes_lex r src
      rw [g2.toks, bytes_append, bytes_cons, ← g2.len, hlen] at h3
      have := lex_pos r src.length src (Nat.le_refl _) t (by rw [g2.toks]; simp)
      omega
  have htoks : lex r src = cs' := by rw [g2.toks, hleft, List.append_nil]
  refine ⟨before, items, h1, g1, by rw [g2.leaves, htoks], text_lex r src.length src (Nat.le_refl _), ?_, g2.wf, g2.errs⟩
  have := g2.tiles
  rw [← g2.len, hlen] at this
  exact this

/-! ### In steps or at once -/

theorem loop_fuel {p : Phases S D I} {r src offset} : ∀ n m (c c' : Comp S D I), p.loop r src offset n c = some c' → p.loop r src offset (n + m) c = some c'
  | 0, _, _, _, h => by simp [Phases.loop] at h
  | n + 1, m, c, c', h => by
    have : n + 1 + m = (n + m) + 1 := by omega
    rw [this]
    unfold Phases.loop at h ⊢
    split at h
    · rename_i hs; rw [if_pos hs]; exact h
    · rename_i hs
      rw [if_neg hs]
      cases hr : p.round r src c with
      | none => rw [hr] at h; simp at h
      | some c1 =>
        rw [hr] at h
        exact loop_fuel n m c1 c' h

/-- Going on to the end after stopping somewhere is going to the end. -/
theorem loop_compose {p : Phases S D I} (hp : p.Lawful) {r src o} : ∀ n m (c c1 c2 : Comp S D I) {cs left}, Covers p r src c.items cs left →
    p.loop r src o n c = some c1 → p.loop r src src.length m c1 = some c2 → p.loop r src src.length (n + m) c = some c2
  | 0, _, _, _, _, _, _, _, h, _ => by simp [Phases.loop] at h
  | n + 1, m, c, c1, c2, cs, left, hc, h, h2 => by
    unfold Phases.loop at h
    split at h
    · cases h
      have : n + 1 + m = m + (n + 1) := by omega
      rw [this]
      exact loop_fuel m (n + 1) c c2 h2
    · rename_i hs
      have hlt := hc.le
      obtain ⟨c3, cs3, left3, h3, h4, -⟩ := round_covers hp hc (fun e => hs (.inr e))
      rw [h3] at h
      have ih := loop_compose hp n m c3 c1 c2 h4 h h2
      have : n + 1 + m = (n + m) + 1 := by omega
      rw [this]
      unfold Phases.loop
      rw [if_neg (by simp only [not_or] at hs ⊢; exact ⟨by omega, hs.2⟩), h3]
      exact ih

/-- The state that `compile_up_to` starts in. -/
def Phases.enter (p : Phases S D I) (items : List I) : Comp S D I :=
  { scope := items.foldl p.addScope p.scope0, defs := items.foldl p.addDefs p.defs0, items }

/-- If checking an item does not change what it contributes to the table of definitions, the tables at
the end of `compile_up_to` are those the next call builds. -/
theorem loop_enter {p : Phases S D I} (hd : ∀ d d' i, p.addDefs d (p.check d' i) = p.addDefs d i) {r src o} :
    ∀ n (items : List I) (c : Comp S D I), p.loop r src o n (p.enter items) = some c → c = p.enter c.items
  | 0, _, _, h => by simp [Phases.loop] at h
  | n + 1, items, c, h => by
    unfold Phases.loop at h
    split at h
    · cases h; rfl
    · cases hr : p.round r src (p.enter items) with
      | none => rw [hr] at h; simp at h
      | some c1 =>
        rw [hr] at h
        have : c1 = p.enter c1.items := by
          unfold Phases.round at hr
          cases hq : parseOneItem (lex r (src.drop (p.compiledLength (p.enter items).items))) (p.compiledLength (p.enter items).items) with
          | none => simp only [hq, Option.map_none] at hr; cases hr
          | some q =>
            simp only [hq, Option.map_some, Option.some.injEq] at hr
            subst hr
            simp [Phases.enter, List.foldl_append, hd]
        rw [this] at h
        exact loop_enter hd n _ c h

theorem compileUpTo_compose {p : Phases S D I} (hp : p.Lawful) (hd : ∀ d d' i, p.addDefs d (p.check d' i) = p.addDefs d i) {r src o items cs left}
    (h : Covers p r src items cs left) {items1} (h1 : p.compileUpTo r src o items = some items1) :
    p.compileUpTo r src src.length items1 = p.compileUpTo r src src.length items := by
  obtain ⟨items1', cs1, left1, e1, hc1, -, more, hm⟩ := compileUpTo_covers hp (offset := o) h
  rw [h1] at e1
  cases e1
  by_cases hs : o ≤ p.compiledLength items
  · unfold Phases.compileUpTo at h1
    rw [if_pos hs] at h1
    cases h1; rfl
  · have h1' := h1
    unfold Phases.compileUpTo at h1'
    rw [if_neg hs] at h1'
    change (p.loop r src o (src.length + 1) (p.enter items)).map (·.items) = some items1 at h1'
    obtain ⟨c1, hl1, rfl⟩ := Option.map_eq_some_iff.mp h1'
    have hen := loop_enter hd _ _ _ hl1
    by_cases hs2 : src.length ≤ p.compiledLength items
    · -- nothing was left
      have hlen : p.compiledLength items = src.length := Nat.le_antisymm h.le hs2
      unfold Phases.loop at hl1
      rw [if_pos (.inr hlen)] at hl1
      cases hl1; rfl
    · obtain ⟨c2, cs2, left2, hl2, hc2, -⟩ := loop_covers hp (offset := src.length) (src.length + 1) (p.enter c1.items) hc1 (by omega)
      have hl2' := hl2
      rw [← hen] at hl2'
      have hcomp := loop_compose hp (src.length + 1) (src.length + 1) (p.enter items) c1 c2 h hl1 hl2'
      obtain ⟨c3, cs3, left3, hl3, -⟩ := loop_covers hp (offset := src.length) (src.length + 1) (p.enter items) h (by omega)
      have := loop_fuel _ (src.length + 1) _ _ hl3
      rw [hcomp] at this
      cases this
      have hR : p.compileUpTo r src src.length items = some c2.items := by
        unfold Phases.compileUpTo
        rw [if_neg hs2]
        change (p.loop r src src.length (src.length + 1) (p.enter items)).map (·.items) = _
        rw [hl3]; rfl
      rw [hR]
      unfold Phases.compileUpTo
      split
      · rename_i hs3
        have hlen : p.compiledLength c1.items = src.length := Nat.le_antisymm hc1.le hs3
        unfold Phases.loop at hl2
        rw [if_pos (.inr hlen)] at hl2
        cases hl2; rfl
      · change (p.loop r src src.length (src.length + 1) (p.enter c1.items)).map (·.items) = _
        rw [hl2]; rfl

/-- **C22**, the analyses.  If checking an item does not change what it contributes to the table of definitions,
then any history of requests followed by compiling to the end gives the same items as compiling to the end at once. -/
theorem stepwise_same {p : Phases S D I} (hp : p.Lawful) (hd : ∀ d d' i, p.addDefs d (p.check d' i) = p.addDefs d i) (r : LexRules) (src : List UInt8) (os : List Nat) :
    ∃ before items, p.requests r src os [] = some before ∧ p.compileUpTo r src src.length before = some items ∧
      p.compileUpTo r src src.length [] = some items := by
  have key : ∀ (os : List Nat) (items0 : List I) {cs left}, Covers p r src items0 cs left → ∃ before items, p.requests r src os items0 = some before ∧
      p.compileUpTo r src src.length before = some items ∧ p.compileUpTo r src src.length items0 = some items := by
    intro os
    induction os with
    | nil =>
      intro items0 cs left h
      obtain ⟨items, cs', left', h1, -⟩ := compileUpTo_covers hp (offset := src.length) h
      exact ⟨items0, items, rfl, h1, h1⟩
    | cons o os ih =>
      intro items0 cs left h
      obtain ⟨items1, cs1, left1, h1, h2, -⟩ := compileUpTo_covers hp (offset := o) h
      obtain ⟨before, items, g1, g2, g3⟩ := ih items1 h2
      exact ⟨before, items, by simp only [Phases.requests, h1, Option.bind_some]; exact g1, g2, by rw [← compileUpTo_compose hp hd h h1]; exact g3⟩
  exact key os [] (.nil p r src)

/-- Parsing alone. -/
def parseOnly : Phases Unit Unit (Elem × List (Nat × Nat)) where
  scope0 := ()
  defs0 := ()
  addScope := fun _ _ => ()
  addDefs := fun _ _ => ()
  parsed := fun e d => (e, d)
  resolve := fun _ i => i
  check := fun _ i => i
  syn := Prod.fst
  parseErrors := Prod.snd

theorem parseOnly_lawful : parseOnly.Lawful := ⟨fun _ _ => rfl, fun _ _ => rfl, fun _ _ => rfl, fun _ _ => rfl, fun _ _ => rfl, fun _ _ => rfl⟩

/-- The syntax of an item. -/
def Phases.proj (p : Phases S D I) (i : I) : Elem × List (Nat × Nat) := (p.syn i, p.parseErrors i)

theorem proj_len (p : Phases S D I) (items : List I) : parseOnly.compiledLength (items.map p.proj) = p.compiledLength items := by
  unfold Phases.compiledLength
  rw [List.getLast?_map]
  cases items.getLast? <;> rfl

theorem proj_loop {p : Phases S D I} (hp : p.Lawful) {r src o} : ∀ n (c : Comp S D I) (c' : Comp Unit Unit _), c'.items = c.items.map p.proj →
    (p.loop r src o n c).map (fun c => c.items.map p.proj) = (parseOnly.loop r src o n c').map (·.items)
  | 0, _, _, _ => rfl
  | n + 1, c, c', h => by
    unfold Phases.loop
    rw [h, proj_len]
    split
    · simp [h]
    · have hr : ∀ q, parseOneItem (lex r (src.drop (p.compiledLength c.items))) (p.compiledLength c.items) = some q →
          ∃ c1 c1', p.round r src c = some c1 ∧ parseOnly.round r src c' = some c1' ∧ c1'.items = c1.items.map p.proj := by
        intro q hq
        refine ⟨_, _, by unfold Phases.round; simp only [hq, Option.map_some]; rfl, by unfold Phases.round; rw [h, proj_len]; simp only [hq, Option.map_some]; rfl, ?_⟩
        simp [h, parseOnly, Phases.proj, hp.syn_check, hp.syn_resolve, hp.syn_parsed, hp.err_check, hp.err_resolve, hp.err_parsed]
      cases hq : parseOneItem (lex r (src.drop (p.compiledLength c.items))) (p.compiledLength c.items) with
      | none =>
        have h1 : p.round r src c = none := by unfold Phases.round; simp [hq]
        have h2 : parseOnly.round r src c' = none := by unfold Phases.round; rw [h, proj_len]; simp [hq]
        rw [h1, h2]; rfl
      | some q =>
        obtain ⟨c1, c1', h1, h2, h3⟩ := hr q hq
        rw [h1, h2]
        exact proj_loop hp n c1 c1' h3

theorem proj_compileUpTo {p : Phases S D I} (hp : p.Lawful) {r src o} (items : List I) :
    (p.compileUpTo r src o items).map (List.map p.proj) = parseOnly.compileUpTo r src o (items.map p.proj) := by
  unfold Phases.compileUpTo
  rw [proj_len]
  split
  · rfl
  · rw [Option.map_map]
    exact proj_loop hp _ _ _ rfl

theorem proj_requests {p : Phases S D I} (hp : p.Lawful) {r src} : ∀ (os : List Nat) (items : List I),
    (p.requests r src os items).map (List.map p.proj) = parseOnly.requests r src os (items.map p.proj)
  | [], items => rfl
  | o :: os, items => by
    unfold Phases.requests
    rw [← proj_compileUpTo hp items]
    cases p.compileUpTo r src o items with
    | none => rfl
    | some items1 => exact proj_requests hp os items1

/-- **C22**, the syntax.  Whatever the analyses do: any history of requests followed by compiling to the end gives
the same syntax trees (hence spans) and the same parser diagnostics, item by item, as compiling to the end at once. -/
theorem stepwise_syntax {p : Phases S D I} (hp : p.Lawful) (r : LexRules) (src : List UInt8) (os : List Nat) :
    ∃ before items items', p.requests r src os [] = some before ∧ p.compileUpTo r src src.length before = some items ∧
      p.compileUpTo r src src.length [] = some items' ∧
      items.map p.syn = items'.map p.syn ∧ items.map p.parseErrors = items'.map p.parseErrors := by
  obtain ⟨before, cs, left, h1, h2, -⟩ := requests_covers hp os (.nil p r src)
  obtain ⟨items, _, _, h3, -⟩ := compileUpTo_covers hp (offset := src.length) h2
  obtain ⟨items', _, _, h4, -⟩ := compileUpTo_covers hp (offset := src.length) (.nil p r src)
  obtain ⟨b, its, g1, g2, g3⟩ := stepwise_same parseOnly_lawful (fun _ _ _ => rfl) r src os
  have e1 := proj_requests hp (r := r) (src := src) os []
  rw [h1] at e1
  simp only [Option.map_some, List.map_nil] at e1
  rw [g1] at e1
  cases e1
  have e2 := proj_compileUpTo hp (r := r) (src := src) (o := src.length) before
  rw [h3, g2] at e2
  have e3 := proj_compileUpTo hp (r := r) (src := src) (o := src.length) []
  rw [h4] at e3
  simp only [Option.map_some, List.map_nil] at e3
  rw [g3] at e3
  simp only [Option.map_some, Option.some.injEq] at e2 e3
  have e4 : items.map p.proj = items'.map p.proj := by rw [e2, e3]
  refine ⟨before, items, items', h1, h3, h4, ?_, ?_⟩
  · have := congrArg (List.map Prod.fst) e4
    simpa [List.map_map, Function.comp_def, Phases.proj] using this
  · have := congrArg (List.map Prod.snd) e4
    simpa [List.map_map, Function.comp_def, Phases.proj] using this

end

/-! ### Examples -/

def exTok (k : TokenKind) : Tok := ⟨.token k, [0]⟩
def exSpace : Tok := ⟨.trivia .space, [0]⟩

/-- The tokens of `import x from "y"; type`, every token being one byte long. -/
def exToks : List Tok :=
  [exTok .import_, exSpace, exTok .ident, exSpace, exTok .from_, exTok .string, exTok .semicolon, exSpace, exTok .type]

/-- The first item takes the 8 bytes up to the space after the semicolon and has no errors. -/
example : (parseOneItem exToks 7).map (fun q => (q.1.full, q.2)) = some ((7, 15), []) := by decide +kernel
/-- That space is not in its span. -/
example : (parseOneItem exToks 7).map (fun q => (q.1.span, q.1.ids)) = some ((7, 14), [0, 1, 2]) := by decide +kernel
/-- From the middle of it, recovery skips to the next item and reports one error. -/
example : (parseOneItem (exToks.drop 4) 7).map (fun q => (q.1.full, q.2)) = some ((7, 11), [(7, 8)]) := by decide +kernel

/-- A lexer for which every byte is the keyword `type`. -/
def exRules : LexRules := ⟨fun _ => (.token .type, 1)⟩

theorem exLex1 : lex exRules [0] = [exTok .type] := by simp [lex, exRules, exTok]
theorem exLex2 : lex exRules [0, 0] = [exTok .type, exTok .type] := by simp [lex, exRules, exTok]

/-- Analyses that, like `kind_check`, change the type recorded in a definition after the definition was
added to the table: a definition is a number, checking turns it into 1 and reports what is known
of the definition before it. -/
def exPhases : Phases Unit (List Nat) ((Elem × List (Nat × Nat)) × Nat × Nat) where
  scope0 := ()
  defs0 := []
  addScope := fun _ _ => ()
  addDefs := fun d i => i.2.1 :: d
  parsed := fun e d => ((e, d), 0, 0)
  resolve := fun _ i => i
  check := fun d i => (i.1, 1, d.getD 1 9)
  syn := fun i => i.1.1
  parseErrors := fun i => i.1.2

theorem exPhases_lawful : exPhases.Lawful := ⟨fun _ _ => rfl, fun _ _ => rfl, fun _ _ => rfl, fun _ _ => rfl, fun _ _ => rfl, fun _ _ => rfl⟩

/-- The hypothesis of `stepwise_same` is needed: with such analyses, asking for the first position first changes the
results. -/
theorem stepwise_may_differ : ∃ (before items items' : List _), exPhases.requests exRules [0, 0] [1] [] = some before ∧
    exPhases.compileUpTo exRules [0, 0] 2 before = some items ∧ exPhases.compileUpTo exRules [0, 0] 2 [] = some items' ∧
    items.map (·.2) = [(1, 9), (1, 1)] ∧ items'.map (·.2) = [(1, 9), (1, 0)] := by
  have p1 : (parseOneItem [exTok .type, exTok .type] 0).map (fun q => q.1.full) = some (0, 1) := by decide +kernel
  have p2 : (parseOneItem [exTok .type] 1).map (fun q => q.1.full) = some (1, 2) := by decide +kernel
  obtain ⟨⟨e1, d1⟩, h1, f1⟩ := Option.map_eq_some_iff.mp p1
  obtain ⟨⟨e2, d2⟩, h2, f2⟩ := Option.map_eq_some_iff.mp p2
  simp only at f1 f2
  refine ⟨[((e1, d1), 1, 9)], [((e1, d1), 1, 9), ((e2, d2), 1, 1)], [((e1, d1), 1, 9), ((e2, d2), 1, 0)], ?_, ?_, ?_, rfl, rfl⟩
  · simp [Phases.requests, Phases.compileUpTo, Phases.loop, Phases.round, Phases.compiledLength, exLex2, h1, f1, exPhases]
  · simp [Phases.compileUpTo, Phases.loop, Phases.round, Phases.compiledLength, exLex1, f1, h2, f2, exPhases]
  · simp [Phases.compileUpTo, Phases.loop, Phases.round, Phases.compiledLength, exLex2, exLex1, h1, f1, h2, f2, exPhases]

end Tic.Parser
