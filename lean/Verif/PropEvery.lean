/-
C56: in items without errors go-to-definition answers at every identifier.
-/
import Verif.SpellWhole
import Verif.SpellFound
import Verif.PropSpell

namespace Tic.Spell

open Tic.Parser
open Tic.Units
open Tic.Lower (Text Source item)
open Tic.Lexer (rules)
open Tic.Resolve
open Tic.Api (Src Laid flat inside isHere nodesItem fakeNode)
open Tic.Hover (nodeId)

/-! ### At the place of a definition there is an answer -/

theorem answer_at_def {s : Src} (h : Laid s) {n k pos : Nat} {O : SOut} {D : Def Target} (hn : n ≤ s.items.length)
    (hk : s.rules[k]? = some O) (hD : D ∈ O.defs) (hname : D.node ∈ (s.items[k]?.map nodesItem).getD []) (hp : inside (s.span D.node) pos = true)
    (he : pos < (s.ispan k).2) : (s.findDefinition n pos).1 ≠ none := by
  obtain ⟨o, ho, rfl⟩ := Api.full_get hk
  obtain ⟨i, env, hi, e⟩ := Src.rules_get hk
  rw [hi, Option.map_some, Option.getD_some] at hname
  have hw := h.within k i hi D.node hname
  have hp' := Api.inside_iff.1 hp
  have hit : Api.inItem (s.ispan k) pos = true := Api.inItem_iff.2 ⟨by omega, he⟩
  have hkl : k < s.items.length := (List.getElem?_eq_some_iff.1 hi).1
  have hc := Api.compiled_enough h hn hkl hit
  have hget : (s.full.take (s.compileUpTo (pos + 1) n))[k]? = some o := by
    rw [List.getElem?_take, if_pos hc, ho]
  have h1 : s.findRefAt pos 0 (s.outs (s.compileUpTo (pos + 1) n)) = none := by
    rw [s.outs_take, Api.findRefAt_item (b := 0) (k := k) hget (by simpa using hit)
      (fun j hj => by rw [Api.item_unique h hit hj]; omega), List.find?_eq_none]
    intro r hr hpr
    have hr' : (erase s.me r.1, r.2) ∈ (o.map (erase s.me)).refs := List.mem_map.2 ⟨r, hr, rfl⟩
    obtain ⟨i2, hi2, hm, -⟩ := Api.rules_ref_node h hk hr'
    exact Api.def_not_ref h hk hD _ hr' (Api.same_name h (Api.names_mem hi hname) (Api.names_mem hi2 hm) hp (by simpa using hpr))
  obtain ⟨d, hd, rfl⟩ := List.mem_map.1 hD
  have h2 : s.findDefAt pos 0 (s.outs (s.compileUpTo (pos + 1) n)) ≠ none := by
    rw [s.outs_take, Api.findDefAt_item (b := 0) (k := k) hget (by simpa using hit)
      (fun j hj => by rw [Api.item_unique h hit hj]; omega)]
    intro hnone
    exact List.find?_eq_none.1 hnone d hd hp
  simp only [Src.findDefinition, h1]
  intro hnone
  exact h2 (Option.map_eq_none_iff.1 hnone)

/-- What is in scope of an item was brought in by the items before. -/
theorem scope_brought (s : Src) (k : Nat) : Brought (fun t => isHere t = true ∨ ∃ d ∈ (flat (s.rules.take (k + 1))).defs, d.sym = t)
    (Env.after ((s.rules.take k).flatMap (·.defs)) []) := by
  refine ⟨fun m => .inl rfl, fun ns x t ht => .inr ?_⟩
  rw [Env.after, List.append_nil] at ht
  obtain ⟨d, hd, hb⟩ := List.mem_flatMap.1 ht
  obtain ⟨o, ho, hd⟩ := List.mem_flatMap.1 (List.mem_reverse.1 hd)
  refine ⟨d, List.mem_flatMap.2 ⟨o, List.mem_of_mem_take (show o ∈ (s.rules.take (k + 1)).take k by rwa [List.take_take, Nat.min_eq_left (by omega)]), hd⟩, ?_⟩
  unfold bindingsOf at hb
  split at hb
  · cases hb
  split at hb <;> simp at hb
  · exact hb.2.2.symm
  · rcases hb with hb | hb <;> exact hb.2.2.symm
  · exact hb.2.2.symm

/-- A recorded definition of a name is at a name. -/
theorem def_at_name {me : Nat} {env : Env} {i : Item} {D : Def Target} {n : Name} (hf : ForeignImports me i) (hD : D ∈ (specItem me env i).defs) (hn : n ∈ namesItem i)
    (e : D.node = n.node) : D.node ∈ nodesItem i := by
  rcases Api.def_node hf hD with h | h
  · exact h.2
  · match i, hn, h with
    | .importI node r name exposed, hn, _ =>
      rw [e]
      simp only [nodesItem, namesItem, List.mem_append] at hn ⊢
      rcases hn with hn | hn
      · exact .inl (by cases name with
          | none => cases hn
          | some x => rw [List.mem_singleton.1 hn]; exact List.mem_singleton.2 rfl)
      · exact .inr (List.mem_map_of_mem hn)
    | .typeI .., _, h => exact nomatch h.2
    | .valueI .., _, h => exact nomatch h.2

/-! ### Around a dot -/

/-- The identifier at `c` is part of a name `m.x` of the `k`-th item. -/
def AroundDot (s : Src) (k : Nat) (c : Nat × Nat) : Prop := ∃ i, s.items[k]? = some i ∧ ∃ n ∈ dotItem i, s.span n.node = c

/-- An identifier of an item without errors. -/
theorem answer_at_name {s : Src} (h : Laid s) {n k pos : Nat} {i : Item} {O : SOut} {x : Name} (hn : n ≤ s.items.length) (hi : s.items[k]? = some i)
    (hk : s.rules[k]? = some O) (hw : WholeItem i) (he : O.errs = []) (hx : x ∈ namesItem i) (hp : inside (s.span x.node) pos = true) (hpos : pos < (s.ispan k).2) :
    (s.findDefinition n pos).1 ≠ none ∨ x ∈ dotItem i := by
  have hO : O = specItem s.me (Env.after ((s.rules.take k).flatMap (·.defs)) []) i := by
    have := specUnit_get s.items (me := s.me) [] k i hi
    exact Option.some.inj (hk.symm.trans this)
  have hf := h.foreign i (List.mem_of_getElem? hi)
  have := item_known (me := s.me) (scope_brought s k) hw (by rw [← hO]; exact he) x hx
  rw [← hO] at this
  rcases this with (⟨D, hD, e⟩ | ⟨r, hr, e, hb⟩) | hd
  · refine .inl (answer_at_def h hn hk hD ?_ (by rw [e]; exact hp) hpos)
    rw [hi]
    exact def_at_name hf (hO ▸ hD) hx e
  · obtain ⟨d, -, h2⟩ := Api.definition_of_use h hn hk (t := r.1) (m := r.2) hr (by rw [e]; exact hp) hpos hb
    exact .inl (by rw [h2]; exact nofun)
  · exact .inr hd

/-- **C56**.  Whatever the text, the analyses, the history of requests and what is imported: every identifier of the text is in one of its items, and if
this item has neither syntax errors nor scope errors then go-to-definition answers with the cursor anywhere at the identifier, unless it is a part of a name `m.x`. -/
theorem answers_everywhere {S D I : Type} {p : Phases S D I} (hp : p.Lawful) (err : Text → Nat) (src : Text) (os : List Nat) {lookup : Lookup} {me : Nat}
    (hf : Elsewhere me lookup) :
    ∃ before items, p.requests (rules err) src os [] = some before ∧ p.compileUpTo (rules err) src src.length before = some items ∧
      ∀ c, Ident (lex (rules err) src) c → ∃ k i O, items[k]? = some i ∧ (unitOf lookup me src (items.map p.syn)).rules[k]? = some O ∧
        (p.syn i).full.1 ≤ c.1 ∧ c.2 ≤ (p.syn i).full.2 ∧
        (p.parseErrors i = [] → O.errs = [] → ∀ n pos, n ≤ items.length → c.1 ≤ pos → pos ≤ c.2 → pos < (p.syn i).full.2 →
          ((unitOf lookup me src (items.map p.syn)).findDefinition n pos).1 ≠ none ∨ AroundDot (unitOf lookup me src (items.map p.syn)) k c) := by
  obtain ⟨before, items, h1, h2, h3, h4, h5⟩ := unit_read hp err src os lookup
  refine ⟨before, items, h1, h2, fun c hc => ?_⟩
  have hpos : ∀ t ∈ lex (rules err) src, 0 < t.text.length := lex_pos _ _ _ (Nat.le_refl _)
  have laid := laid_of_trees h3 hpos (lex_apart err _ src (Nat.le_refl _)) hf src
  have hc' := hc
  unfold Ident at hc'
  rw [← h4] at hc'
  obtain ⟨i, hi, hleaf⟩ := List.mem_flatMap.1 hc'
  obtain ⟨k, hk⟩ := List.mem_iff_getElem?.1 hi
  have hk' : (items.map p.syn)[k]? = some (p.syn i) := by rw [List.getElem?_map, hk]; rfl
  have ht : p.syn i ∈ items.map p.syn := List.mem_of_getElem? hk'
  obtain ⟨-, l1, l2⟩ := h3.leaves _ ht _ hleaf
  have hlen : (unitOf lookup me src (items.map p.syn)).items.length = items.length := by
    exact itemsFrom_length.trans (List.length_map ..)
  have hkl : k < (unitOf lookup me src (items.map p.syn)).items.length := by
    rw [hlen]; exact (List.getElem?_eq_some_iff.1 hk).1
  have hit := List.getElem?_eq_getElem hkl
  obtain ⟨t, g1, g2⟩ := itemsFrom_get hit
  rw [hk'] at g1
  cases g1
  rw [Nat.zero_add] at g2
  refine ⟨k, i, _, hk, specUnit_get _ (me := me) [] k _ hit, l1, l2, fun hpe hoe n pos hn p1 p2 p3 => ?_⟩
  obtain ⟨w1, w2⟩ := h5 i hi hpe (nodeNo (width (items.map p.syn)) k)
  obtain ⟨x, hx, d, hd, hd1, hd2⟩ := w2 c hleaf
  rw [← g2] at w1 hx
  have hspan : (unitOf lookup me src (items.map p.syn)).span x.node = c := by
    rw [hd2, ← hd1]
    exact spanAt_node hk' (h3.ids _ ht) (List.mem_filter.1 hd).1
  rcases answer_at_name laid (n := n) (pos := pos) (by rw [hlen]; exact hn) hit (specUnit_get _ (me := me) [] k _ hit) w1 hoe hx
      (by rw [hspan]; exact Api.inside_iff.2 ⟨p1, p2⟩) (by show pos < (extent _ k).2; rw [extent_some hk']; exact p3) with h | h
  · exact .inl h
  · exact .inr ⟨_, hit, x, h, hspan⟩

end Tic.Spell
