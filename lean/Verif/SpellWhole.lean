/-
In an item without syntax errors every identifier is a name that is read.
-/
import Verif.SpellShow
import Verif.SpellCount
import Verif.PropUnit

namespace Tic.Spell

open Tic.Parser
open Tic.Grammar (Syn)
open Tic.Units
open Tic.Lower
open Tic.Resolve (Name Item)
open Tic.Hover (nodeId)
open Tic.Lexer (rules)

/-! ### Counting -/

theorem count_len {α : Type} [BEq α] [LawfulBEq α] : ∀ {A B : List α}, (∀ m, A.count m ≤ B.count m) → A.length ≤ B.length
  | [], B, _ => by simp
  | a :: A, B, h => by
    have ha : a ∈ B := List.count_pos_iff.1 (Nat.lt_of_lt_of_le (by simp) (h a))
    have := count_len (A := A) (B := B.erase a) fun m => by
      have := h m
      rw [List.count_cons] at this
      rw [List.count_erase]
      by_cases e : a = m
      · subst e; simp at this ⊢; omega
      · simp [e] at this ⊢; simpa [e] using this
    rw [List.length_erase_of_mem ha] at this
    have : 0 < B.length := List.length_pos_of_mem ha
    simp only [List.length_cons]; omega

/-- Of two lists, the one with no more occurrences of anything and no fewer elements has all. -/
theorem count_full {α : Type} [BEq α] [LawfulBEq α] : ∀ {A B : List α}, (∀ m, A.count m ≤ B.count m) → B.length ≤ A.length → ∀ x ∈ B, x ∈ A
  | [], B, _, hl, x, hx => by
    have := List.length_pos_of_mem hx
    rw [List.length_nil] at hl; omega
  | a :: A, B, h, hl, x, hx => by
    have ha : a ∈ B := List.count_pos_iff.1 (Nat.lt_of_lt_of_le (by simp) (h a))
    by_cases e : x = a
    · subst e; simp
    have h1 : ∀ m, A.count m ≤ (B.erase a).count m := fun m => by
      have := h m
      rw [List.count_cons] at this
      rw [List.count_erase]
      by_cases e : a = m
      · subst e; simp at this ⊢; omega
      · simp [e] at this ⊢; simpa [e] using this
    have h2 : (B.erase a).length ≤ A.length := by
      rw [List.length_erase_of_mem ha]
      simp only [List.length_cons] at hl
      omega
    exact List.mem_cons_of_mem _ (count_full h1 h2 x ((List.mem_erase_of_ne e).2 hx))

theorem nodup_count {α : Type} [BEq α] [LawfulBEq α] : ∀ {A B : List α}, A.Nodup → (∀ x ∈ A, x ∈ B) → ∀ m, A.count m ≤ B.count m := by
  intro A B hn h m
  by_cases hm : m ∈ A
  · have := List.nodup_iff_count.1 hn m
    have := List.count_pos_iff.2 (h m hm)
    omega
  · rw [List.count_eq_zero.2 hm]; omega

/-! ### The identifiers of an item -/

def isIdent (x : LexKind × (Nat × Nat)) : Bool := x.1 = .token .ident

theorem ident_words : ∀ (ts : List Tok) (p : Nat), ((place p ts).filter isIdent).length = (kindsOf ts).count .ident
  | [], p => rfl
  | t :: ts, p => by
    rw [place, List.filter_cons, kindsOf]
    have ih := ident_words ts (p + t.text.length)
    cases hk : t.kind with
    | trivia k => simpa [isIdent] using ih
    | token k =>
      simp only [List.count_cons, ← ih, isIdent]
      by_cases e : k = .ident
      · subst e; simp
      · simp [e]

/-- The identifiers of the tree are names that are read. -/
structure Read (lookup : Lookup) (nd : Nat → Nat) (s : Source) (t : Elem) : Prop where
  whole : WholeItem (toItemO lookup nd (item s t))
  read : ∀ sp, (LexKind.token .ident, sp) ∈ t.leaves → ∃ n ∈ namesItem (toItemO lookup nd (item s t)), ∃ d ∈ nameNodes t, spanOf d = sp ∧ n.node = nd (nodeId d)

theorem read_one {toks : List Tok} {start : Nat} {root} (h : parseOneItem toks start = some (root, [])) (hs : (root.leaves.map Prod.snd).Nodup)
    (lookup : Lookup) (nd : Nat → Nat) : Read lookup nd ⟨start, textOf toks⟩ root := by
  have hg := Lower.parse_good h
  obtain ⟨root', errs, cs, left, h1, h2, h3, -, -, h6⟩ := view_one toks start
  rw [h] at h1
  simp only [Option.some.injEq, Prod.mk.injEq] at h1
  obtain ⟨rfl, rfl⟩ := h1
  have hlen : (root.leaves.filter isIdent).length = (namesItem (toItemO lookup nd (item ⟨start, textOf toks⟩ root))).length ∧
      WholeItem (toItemO lookup nd (item ⟨start, textOf toks⟩ root)) := by
    rw [h3, ident_words, kinds_words]
    rcases h6 rfl with ⟨a, b⟩ | ⟨i, hi, hw, v, hv, hsh⟩
    · have : wordsOf cs = [] := by
        rw [h2, words_append] at a
        exact (List.append_eq_nil_iff.1 a).1
      rw [this, b]
      exact ⟨rfl, trivial, trivial⟩
    · obtain ⟨g1, g2⟩ := item_len (nd := nd) lookup hsh
      rw [hw, words_fst, hv]
      exact ⟨(item_even hi).trans g1.symm, g2⟩
  obtain ⟨hlen, hwhole⟩ := hlen
  refine ⟨hwhole, fun sp hsp => ?_⟩
  generalize hN : namesItem (toItemO lookup nd (item ⟨start, textOf toks⟩ root)) = N at *
  have c1 : ∀ m, (N.map (·.node)).count m ≤ ((nameIds root).map nd).count m := fun m => by
    have := Count.root_le nd m ⟨start, textOf toks⟩ lookup root
    rwa [hN] at this
  have l1 := count_len c1
  have hids : (nameIds root).length = (nameNodes root).length := by simp [nameIds, nameNodes]
  have c2 := nodup_count (B := (root.leaves.filter isIdent).map Prod.snd) (name_spans_nodup hg hs) fun x hx => by
    obtain ⟨d, hd, rfl⟩ := List.mem_map.1 hx
    exact List.mem_map.2 ⟨_, List.mem_filter.2 ⟨name_leaf hg hd, by simp [isIdent]⟩, rfl⟩
  have l2 : ((nameNodes root).map spanOf).length ≤ ((root.leaves.filter isIdent).map Prod.snd).length := by
    exact count_len c2
  simp only [List.length_map] at l1 l2
  obtain ⟨d, hd, hd2⟩ := List.mem_map.1 (count_full c2 (by simp only [List.length_map]; omega) sp
    (List.mem_map.2 ⟨_, List.mem_filter.2 ⟨hsp, by simp [isIdent]⟩, rfl⟩))
  have hm : nd (nodeId d) ∈ (nameIds root).map nd := List.mem_map_of_mem (List.mem_map.2 ⟨d, hd, rfl⟩)
  obtain ⟨n, hn, e⟩ := List.mem_map.1 (count_full c1 (by simp only [List.length_map]; omega) _ hm)
  exact ⟨n, hn, d, hd, hd2, e⟩

/-! ### The identifiers of a file -/

section
variable {S D I : Type}

/-- The invariant of the driver. -/
structure AllRead (p : Phases S D I) (src : Text) (lookup : Lookup) (all : List Tok) (items : List I) (cs left : List Tok) : Prop where
  split : all = cs ++ left
  read : ∀ i ∈ items, p.parseErrors i = [] → ∀ nd, Read lookup nd ⟨(p.syn i).full.1, src.drop (p.syn i).full.1⟩ (p.syn i)

theorem allRead_step {p : Phases S D I} {src : Text} {lookup : Lookup} {all : List Tok} (hall : textOf all = src) (hpos : ∀ t ∈ all, 0 < t.text.length) :
    ∀ items cs i ds rest, ds ≠ [] → AllRead p src lookup all items cs (ds ++ rest) →
    parseOneItem (ds ++ rest) (bytes cs) = some (p.syn i, p.parseErrors i) → (p.syn i).leaves = place (bytes cs) ds →
    AllRead p src lookup all (items ++ [i]) (cs ++ ds) rest := by
  intro items cs i ds rest _ h hp hl
  refine ⟨by rw [h.split, List.append_assoc], fun j hj he nd => ?_⟩
  rcases List.mem_append.1 hj with hj | hj
  · exact h.read j hj he nd
  rw [List.mem_singleton] at hj
  subst hj
  obtain ⟨root', errs', cs'', left'', k1, -, -, k4, -⟩ := parse_total (ds ++ rest) (bytes cs)
  rw [hp] at k1
  simp only [Option.some.injEq, Prod.mk.injEq] at k1
  obtain ⟨rfl, rfl⟩ := k1
  rw [k4]
  simp only
  rw [drop_text hall h.split]
  refine read_one (he ▸ hp) ?_ lookup nd
  rw [hl]
  exact place_nodup fun t ht => hpos t (by rw [h.split]; simp [ht])

/-- Every identifier of a text is one of its trees', and if there are no syntax errors it is a name that is read. -/
theorem unit_read {p : Phases S D I} (hp : p.Lawful) (err : Text → Nat) (src : Text) (os : List Nat) (lookup : Lookup) :
    ∃ before items, p.requests (rules err) src os [] = some before ∧ p.compileUpTo (rules err) src src.length before = some items ∧
      Trees (lex (rules err) src) (items.map p.syn) ∧ items.flatMap (fun i => (p.syn i).leaves) = place 0 (lex (rules err) src) ∧
      ∀ i ∈ items, p.parseErrors i = [] → ∀ nd, Read lookup nd ⟨(p.syn i).full.1, src.drop (p.syn i).full.1⟩ (p.syn i) := by
  have hpos : ∀ t ∈ lex (rules err) src, 0 < t.text.length := lex_pos _ _ _ (Nat.le_refl _)
  have hall : textOf (lex (rules err) src) = src := text_lex _ _ _ (Nat.le_refl _)
  have h0 : AllRead p src lookup (lex (rules err) src) ([] : List I) [] (lex (rules err) src) := ⟨rfl, by simp⟩
  obtain ⟨before, cs, left, h1, h2, h3⟩ := Units.requests_inv hp (allRead_step hall hpos) os (.nil p (rules err) src) h0
  obtain ⟨items, cs', left', g1, g2, g3⟩ := Units.compileUpTo_inv hp (offset := src.length) (allRead_step hall hpos) h2 h3
  obtain ⟨before', items', k1, k2, k3⟩ := unit_trees hp err src os
  rw [h1] at k1
  cases k1
  rw [g1] at k2
  cases k2
  have hlen : p.compiledLength items = src.length := by
    obtain ⟨items', cs'', left'', k1, k2, k3, -⟩ := compileUpTo_covers hp (offset := src.length) h2
    rw [g1] at k1
    cases k1
    have := g2.le
    rcases k3 with h | h <;> omega
  have hleft : left' = [] := by
    cases left' with
    | nil => rfl
    | cons t ts =>
      have h3 := bytes_lex (rules err) src
      rw [g2.toks, bytes_append, bytes_cons, ← g2.len, hlen] at h3
      have := hpos t (by rw [g2.toks]; simp)
      omega
  refine ⟨before, items, h1, g1, k3, ?_, g3.read⟩
  rw [g2.leaves, g2.toks, hleft, List.append_nil]
end

end Tic.Spell
