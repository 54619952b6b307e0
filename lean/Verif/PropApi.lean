import Verif.ApiNav

/-!
# C45: go to definition and find references

The theorems speak of `s.rules`: what the scope rules of the language (`ResolveSpec`, C30) say each name
of each item refers to.  A use is a pair of a target and the node of the name; the target `.here b` is the
name introduced at node `b` of this unit.  `n` is the number of items earlier queries have compiled.
-/

namespace Tic.Api

open Tic.Resolve

variable {s : Src}

/-- what the code finds at a use, in symbols -/
theorem use_found (h : Laid s) {n k pos m : Nat} {O : SOut} {t : Target} (hn : n ≤ s.items.length)
    (hk : s.rules[k]? = some O) (hr : (t, m) ∈ O.refs) (hp : inside (s.span m) pos = true)
    (he : pos < (s.ispan k).2) :
    ∃ x o, s.full[k]? = some o ∧ (x, m) ∈ o.refs ∧ t = erase s.me x ∧
      s.findRefAt pos 0 (s.outs (s.compileUpTo (pos + 1) n)) = some (x, m) ∧ k < s.compileUpTo (pos + 1) n := by
  obtain ⟨o, ho, rfl⟩ := full_get hk
  obtain ⟨⟨x, m'⟩, hx, e⟩ := List.mem_map.1 hr
  cases e
  obtain ⟨h1, h2⟩ := refAt h hn ho hx hp he
  exact ⟨x, o, ho, hx, rfl, h1, h2⟩

/-- the first place that brings in what a use refers to, if a place up to the use does -/
theorem brought_in (h : Laid s) {k m : Nat} {o : Out Sym} {x : Sym} (hk : s.full[k]? = some o) (hx : (x, m) ∈ o.refs)
    {n' : Nat} (hn' : k < n')
    (hb : isHere (erase s.me x) = true ∨ ∃ d ∈ (flat (s.rules.take (k + 1))).defs, d.sym = erase s.me x) :
    ∃ o' d', findDef x (s.full.take n') = some (o', d') ∧
      (flat s.rules).defs.find? (fun d => decide (d.sym = erase s.me x)) = some (d'.map (erase s.me)) := by
  have hkn : x.unit = s.me → ∃ d ∈ (flat s.full).defs, d.sym = x := fun hu => by
    obtain ⟨d, hd, e⟩ := ref_known h hk hx hu
    exact ⟨d, flat_take_sub hd, e⟩
  obtain ⟨d, hd, e⟩ : ∃ d ∈ (flat (s.full.take (k + 1))).defs, d.sym = x := by
    by_cases hu : x.unit = s.me
    · exact ref_known h hk hx hu
    · rcases hb with hb | ⟨d, hd, e⟩
      · simp [erase, hu, isHere] at hb
      · obtain ⟨j, O, hj, hd⟩ := flat_mem_defs.1 hd
        rw [List.getElem?_take] at hj
        split at hj
        · rename_i hjk
          obtain ⟨o', ho', rfl⟩ := full_get hj
          obtain ⟨d', hd', rfl⟩ := List.mem_map.1 hd
          refine ⟨d', flat_mem_defs.2 ⟨j, o', by rw [List.getElem?_take, if_pos hjk, ho'], hd'⟩, ?_⟩
          have e : erase s.me d'.sym = erase s.me x := e
          exact erase_inj h (fun _ => ⟨d', flat_mem_defs.2 ⟨j, o', ho', hd'⟩, rfl⟩) hkn e
        · exact nomatch hj
  obtain ⟨o', d', h1, h2⟩ := first_in_prefix (flat_take_mono (show k + 1 ≤ n' from hn') hd) e
  exact ⟨o', d', h1, by rw [first_def h hkn, h2]; rfl⟩

/-- **Go to definition, from a use.**  At a position in a name that, by the scope rules, refers to something
an item up to the use's own brings into the unit, the answer is the span of the name that first brings it in,
whatever was compiled before. -/
theorem definition_of_use (h : Laid s) {n k pos m : Nat} {O : SOut} {t : Target} (hn : n ≤ s.items.length)
    (hk : s.rules[k]? = some O) (hr : (t, m) ∈ O.refs) (hp : inside (s.span m) pos = true)
    (he : pos < (s.ispan k).2)
    (hb : isHere t = true ∨ ∃ d ∈ (flat (s.rules.take (k + 1))).defs, d.sym = t) :
    ∃ d, (flat s.rules).defs.find? (fun d => decide (d.sym = t)) = some d ∧
      (s.findDefinition n pos).1 = some (s.span d.node) := by
  obtain ⟨x, o, ho, hx, rfl, h1, h2⟩ := use_found h hn hk hr hp he
  obtain ⟨o', d', h3, h4⟩ := brought_in h ho hx h2 hb
  refine ⟨_, h4, ?_⟩
  simp only [Src.findDefinition, h1]
  rw [s.outs_take, h3]
  rfl

/-- **Go to definition, from a use of a name of this unit**: the answer is the span of exactly the name the
scope rules say it refers to. -/
theorem definition_of_own_use (h : Laid s) {n k pos m b : Nat} {O : SOut} (hn : n ≤ s.items.length)
    (hk : s.rules[k]? = some O) (hr : (.here b, m) ∈ O.refs) (hp : inside (s.span m) pos = true)
    (he : pos < (s.ispan k).2) : (s.findDefinition n pos).1 = some (s.span b) := by
  obtain ⟨d, h1, h2⟩ := definition_of_use h hn hk hr hp he (.inl rfl)
  rw [h2]
  have hd := List.mem_of_find?_eq_some h1
  have e : d.sym = .here b := by simpa using List.find?_some h1
  rw [flat_map_defs] at hd
  obtain ⟨d0, hd0, rfl⟩ := List.mem_map.1 hd
  obtain ⟨_, ok⟩ := defsOK h
  have e : erase s.me d0.sym = .here b := e
  unfold erase at e
  split at e
  · rename_i hu
    have := ok.tag d0 hd0 hu
    have e' := Target.here.inj e
    show some (s.span d0.node) = _
    rw [this, e']
  · exact nomatch e

theorem isImport_iff_fake {i : Item} (h : isImport i = false) : fakeNode i = [] := by
  cases i <;> first | rfl | exact nomatch h

/-- what the code finds at a definition, in symbols -/
theorem def_found (h : Laid s) {n k pos : Nat} {O : SOut} {D : Def Target} {i : Item} (hn : n ≤ s.items.length)
    (hk : s.rules[k]? = some O) (hi : s.items[k]? = some i) (hfk : fakeNode i = [])
    (hd : O.defs.find? (fun d => d.node == D.node) = some D) (hp : inside (s.span D.node) pos = true)
    (he : pos < (s.ispan k).2) (href : ∀ r ∈ O.refs, r.2 ≠ D.node) :
    ∃ d o, s.full[k]? = some o ∧ d ∈ o.defs ∧ D = d.map (erase s.me) ∧
      s.findRefAt pos 0 (s.outs (s.compileUpTo (pos + 1) n)) = none ∧
      s.findDefAt pos 0 (s.outs (s.compileUpTo (pos + 1) n)) = some d ∧ k < s.compileUpTo (pos + 1) n := by
  obtain ⟨o, ho, rfl⟩ := full_get hk
  obtain ⟨i', env, hi', e⟩ := Src.rules_get hk
  rw [hi] at hi'
  cases hi'
  have hf := h.foreign i (List.mem_of_getElem? hi)
  have hnode : ∀ d ∈ (o.map (erase s.me)).defs, d.node ∈ nodesItem i := by
    intro d hd
    rw [e] at hd
    rcases def_node hf hd with h1 | h1
    · exact h1.2
    · rw [hfk] at h1; exact nomatch h1.2
  have hDm := List.mem_of_find?_eq_some hd
  have hw := h.within k i hi D.node (hnode D hDm)
  have hp' := inside_iff.1 hp
  have hit : inItem (s.ispan k) pos = true := inItem_iff.2 ⟨by omega, he⟩
  have hkl : k < s.items.length := (List.getElem?_eq_some_iff.1 hi).1
  have hc := compiled_enough h hn hkl hit
  have hget : (s.full.take (s.compileUpTo (pos + 1) n))[k]? = some o := by
    rw [List.getElem?_take, if_pos hc, ho]
  have hsame : ∀ d ∈ o.defs, inside (s.span d.node) pos = (d.node == D.node) := by
    intro d hd
    have hdm : d.node ∈ nodesItem i := hnode (d.map (erase s.me)) (List.mem_map.2 ⟨d, hd, rfl⟩)
    rw [Bool.eq_iff_iff]
    constructor
    · intro hp2
      simpa using same_name h (names_mem hi (hnode D hDm)) (names_mem hi hdm) hp hp2
    · intro e; rw [show d.node = D.node by simpa using e]; exact hp
  have hfind : o.defs.find? (fun d => d.node == D.node) =
      o.defs.find? fun d => inside (s.span d.node) pos := find_congr fun d hd => (hsame d hd).symm
  have hd' : ((o.defs.find? fun d => inside (s.span d.node) pos).map (Def.map (erase s.me))) = some D := by
    rw [← hfind, ← hd]
    show _ = (o.defs.map (Def.map (erase s.me))).find? _
    rw [List.find?_map]; rfl
  obtain ⟨d, hd1, hd2⟩ := Option.map_eq_some_iff.1 hd'
  refine ⟨d, o, ho, List.mem_of_find?_eq_some hd1, hd2.symm, ?_, ?_, hc⟩
  · rw [s.outs_take, findRefAt_item (b := 0) (k := k) hget (by simpa using hit)
      (fun j hj => by rw [item_unique h hit hj]; omega), List.find?_eq_none]
    intro r hr hpr
    have hr' : (erase s.me r.1, r.2) ∈ (o.map (erase s.me)).refs := List.mem_map.2 ⟨r, hr, rfl⟩
    obtain ⟨i2, hi2, hm, -⟩ := rules_ref_node h hk hr'
    exact href _ hr' (same_name h (names_mem hi (hnode D hDm)) (names_mem hi2 hm) hp (by simpa using hpr))
  · rw [s.outs_take, findDefAt_item (b := 0) (k := k) hget (by simpa using hit)
      (fun j hj => by rw [item_unique h hit hj]; omega), hd1]

theorem le_sum_of_mem : ∀ {l : List Nat} {a : Nat}, a ∈ l → a ≤ l.sum
  | b :: l, a, h => by
    rw [List.sum_cons]
    rcases List.mem_cons.1 h with rfl | h
    · exact Nat.le_add_right ..
    · exact Nat.le_trans (le_sum_of_mem h) (Nat.le_add_left ..)

/-- names that are defined are not also used there -/
theorem def_not_ref (h : Laid s) {k : Nat} {O : SOut} {D : Def Target} (hk : s.rules[k]? = some O)
    (hD : D ∈ O.defs) : ∀ r ∈ O.refs, r.2 ≠ D.node := by
  intro r hr e
  obtain ⟨i, env, hi, rfl⟩ := Src.rules_get hk
  have hf := h.foreign i (List.mem_of_getElem? hi)
  obtain ⟨-, him⟩ := ref_node hf hr
  obtain ⟨e1, -⟩ := (own_specItem (me := s.me) env i him).all D hD
  have h1 : 2 ≤ occ (specItem s.me env i) D.node := by
    unfold occ
    have a : 0 < (specItem s.me env i).refs.countP (fun r => r.2 == D.node) :=
      List.countP_pos_iff.2 ⟨r, hr, by simp [e]⟩
    have b : 0 < (specItem s.me env i).defs.countP (fun d => d.node == D.node && isHere d.sym) :=
      List.countP_pos_iff.2 ⟨D, hD, by simp [e1, isHere]⟩
    omega
  have h2 : occ (specItem s.me env i) D.node ≤ occ (flat s.rules) D.node := by
    rw [occ_flat]
    have : occ (specItem s.me env i) D.node ∈ s.rules.map fun o => occ o D.node :=
      List.mem_map.2 ⟨_, List.mem_of_getElem? hk, rfl⟩
    exact le_sum_of_mem this
  have := occ_unit h D.node
  omega

/-- **Go to definition, from a definition**: a name that introduces something (or is exposed by an import
that also names the module) is its own answer. -/
theorem definition_of_definition (h : Laid s) {n k pos : Nat} {O : SOut} {D : Def Target} {i : Item}
    (hn : n ≤ s.items.length) (hk : s.rules[k]? = some O) (hi : s.items[k]? = some i) (hfk : fakeNode i = [])
    (hd : D ∈ O.defs) (hp : inside (s.span D.node) pos = true) (he : pos < (s.ispan k).2) :
    (s.findDefinition n pos).1 = some (s.span D.node) := by
  obtain ⟨D', hD'⟩ : ∃ D', O.defs.find? (fun d => d.node == D.node) = some D' := by
    cases hf : O.defs.find? (fun d => d.node == D.node) with
    | none => have := List.find?_eq_none.1 hf D hd; simp at this
    | some D' => exact ⟨D', rfl⟩
  have e : D'.node = D.node := by simpa using List.find?_some hD'
  rw [← e] at hD' hp ⊢
  obtain ⟨d, o, -, -, e', h1, h2, -⟩ := def_found h hn hk hi hfk hD' hp he
    (def_not_ref h hk (List.mem_of_find?_eq_some hD'))
  simp only [Src.findDefinition, h1, h2, Option.map_some]
  rw [e']; rfl

/-- All uses of a target in the unit, in the order of the items. -/
def Src.usesOf (s : Src) (t : Target) : List Span :=
  ((flat s.rules).refs.filter fun r => decide (r.1 = t)).map fun r => s.span r.2

theorem refSpans_all (h : Laid s) {x : Sym} (hx : x.unit = s.me → ∃ d ∈ (flat s.full).defs, d.sym = x) :
    s.refSpans x (flat s.full).refs = s.usesOf (erase s.me x) := by
  unfold Src.refSpans Src.usesOf
  rw [flat_map_refs]
  have : ∀ l : List (Sym × Nat), (∀ r ∈ l, r ∈ (flat s.full).refs) →
      (l.filterMap fun r => if r.1 = x then some (s.span r.2) else none) =
      ((l.map fun r => (erase s.me r.1, r.2)).filter fun r => decide (r.1 = erase s.me x)).map
        fun r => s.span r.2 := by
    intro l
    induction l with
    | nil => intro _; rfl
    | cons r l ih =>
      intro hl
      have ih := ih fun r hr => hl r (List.mem_cons_of_mem _ hr)
      have e : (r.1 = x) ↔ (erase s.me r.1 = erase s.me x) :=
        ⟨fun e => by rw [e], fun e => erase_inj h (fun hu => ref_known' h (m := r.2) (hl r List.mem_cons_self) hu) hx e⟩
      by_cases hc : r.1 = x
      · simp [hc, ih]
      · have hc' : ¬ erase s.me r.1 = erase s.me x := fun c => hc (e.2 c)
        simp [hc, hc', ih]
  exact this _ fun _ h => h

/-- the references the code collects are all references -/
theorem collected (h : Laid s) {x : Sym} {n' : Nat} (hn' : n' ≤ s.items.length) {o : Out Sym} {d : Def Sym}
    (hf : findDef x (s.full.take n') = some (o, d)) :
    (if d.vis = .local then s.refSpans x o.refs
     else s.refSpans x ((s.outs (s.compileUpTo (s.compiledLength s.items.length) n')).flatMap (·.refs))) =
      s.usesOf (erase s.me x) := by
  obtain ⟨k, hk, hd, rfl⟩ := findDef_item hf
  have hk' : s.full[k]? = some o := by
    rw [List.getElem?_take] at hk
    split at hk
    · exact hk
    · exact nomatch hk
  have hmem : d ∈ (flat s.full).defs := flat_mem_defs.2 ⟨k, o, hk', hd⟩
  rw [← refSpans_all h fun _ => ⟨d, hmem, rfl⟩]
  split
  · rename_i hl
    have hu : d.sym.unit = s.me := by
      have hrules : s.rules[k]? = some (o.map (erase s.me)) := by rw [← s.full_map, List.getElem?_map, hk']; rfl
      obtain ⟨i, env, hi, e⟩ := Src.rules_get hrules
      have hdm : d.map (erase s.me) ∈ (o.map (erase s.me)).defs := List.mem_map.2 ⟨d, hd, rfl⟩
      rw [e] at hdm
      by_cases him : isImport i = true
      · exfalso
        have hvis : ∀ (unit : List (Export Target)) ns, ∀ d ∈ (specExpose unit ns).defs, d.vis = .module := by
          intro unit ns
          induction ns with
          | nil => intro d hd; cases hd
          | cons n ns ih =>
            intro d hd
            simp only [specExpose, SOut.append_def] at hd
            rcases List.mem_append.1 hd with hd | hd
            · split at hd
              · cases hd
              · simp only [exposedDefs, List.mem_filterMap] at hd
                obtain ⟨_, -, hd⟩ := hd
                obtain ⟨_, -, rfl⟩ := Option.map_eq_some_iff.1 hd
                rfl
            · exact ih d hd
        have hl' : (d.map (erase s.me)).vis = .local := hl
        match i with
        | .importI node .noPath name exposed => cases hdm
        | .importI node (.failed e m) name exposed => cases hdm
        | .importI node (.ok unit) none exposed =>
          simp only [specItem, specImport, SOut.append_def] at hdm
          rcases List.mem_append.1 hdm with hdm | hdm
          · rw [List.mem_singleton.1 hdm] at hl'; exact nomatch hl'
          · rw [hvis _ _ _ hdm] at hl'; exact nomatch hl'
        | .importI node (.ok unit) (some n) exposed =>
          simp only [specItem, specImport, SOut.append_def] at hdm
          rcases List.mem_append.1 hdm with hdm | hdm
          · rw [List.mem_singleton.1 hdm] at hl'; exact nomatch hl'
          · rw [hvis _ _ _ hdm] at hl'; exact nomatch hl'
      · obtain ⟨e1, -⟩ := (own_specItem (me := s.me) env i (by simpa using him)).all _ hdm
        have e1 : erase s.me d.sym = .here d.node := e1
        unfold erase at e1
        split at e1
        · assumption
        · exact nomatch e1
    have := flatMap_single (g := fun o : Out Sym => s.refSpans d.sym o.refs) hk' ?_
    · rw [← this]
      simp only [Src.refSpans, flat, List.filterMap_flatMap]
    · intro j o' hj hne
      simp only [Src.refSpans, List.filterMap_eq_nil_iff, ite_eq_right_iff, reduceCtorEq, imp_false]
      intro r hr e
      exact hne (local_refs h hk' hd hl hu hj (m := r.2) (by rw [← e]; exact hr))
  · obtain ⟨-, h2, h3⟩ := Src.compileUpTo_spec (s := s) (s.compiledLength s.items.length) hn'
    have hlen : s.compileUpTo (s.compiledLength s.items.length) n' = s.items.length := by
      rcases h3 with h3 | h3
      · by_cases e : s.compileUpTo (s.compiledLength s.items.length) n' = s.items.length
        · exact e
        · have := h.length_lt (show s.compileUpTo (s.compiledLength s.items.length) n' < s.items.length by omega)
          omega
      · exact h3
    rw [hlen, s.outs_take, ← s.full_length, List.take_length]
    rfl

/-- **Find references, from a use.**  At a position in a name that refers, by the scope rules, to something an
item up to the use's own brings into the unit, the answer is the list of the spans of all names of the whole unit
that refer to the same thing, whatever was compiled before. -/
theorem references_of_use (h : Laid s) {n k pos m : Nat} {O : SOut} {t : Target} (hn : n ≤ s.items.length)
    (hk : s.rules[k]? = some O) (hr : (t, m) ∈ O.refs) (hp : inside (s.span m) pos = true)
    (he : pos < (s.ispan k).2)
    (hb : isHere t = true ∨ ∃ d ∈ (flat (s.rules.take (k + 1))).defs, d.sym = t) :
    (s.findReferences n pos).1 = some (s.usesOf t) := by
  obtain ⟨x, o, ho, hx, rfl, h1, h2⟩ := use_found h hn hk hr hp he
  obtain ⟨o', d', h3, -⟩ := brought_in h ho hx h2 hb
  have hc := collected h (Src.compileUpTo_spec (s := s) (pos + 1) hn).2.1 h3
  have e3 : findDef x (s.outs (s.compileUpTo (pos + 1) n)) = some (o', d') := by rw [s.outs_take, h3]
  simp only [Src.findReferences, Src.symAt, h1, e3]
  rw [← hc]
  split <;> rfl

/-- **Find references, from a definition**: all the names of the unit that refer to it. -/
theorem references_of_definition (h : Laid s) {n k pos : Nat} {O : SOut} {D : Def Target} {i : Item}
    (hn : n ≤ s.items.length) (hk : s.rules[k]? = some O) (hi : s.items[k]? = some i) (hfk : fakeNode i = [])
    (hd : O.defs.find? (fun d => d.node == D.node) = some D) (hp : inside (s.span D.node) pos = true)
    (he : pos < (s.ispan k).2) : (s.findReferences n pos).1 = some (s.usesOf D.sym) := by
  obtain ⟨d, o, ho, hdm, rfl, h1, h2, h3⟩ := def_found h hn hk hi hfk hd hp he
    (def_not_ref h hk (List.mem_of_find?_eq_some hd))
  have hmem : d ∈ (flat (s.full.take (s.compileUpTo (pos + 1) n))).defs :=
    flat_mem_defs.2 ⟨k, o, by rw [List.getElem?_take, if_pos h3, ho], hdm⟩
  obtain ⟨o', d', h4, -⟩ := first_in_prefix hmem rfl
  have hc := collected h (Src.compileUpTo_spec (s := s) (pos + 1) hn).2.1 h4
  have e3 : findDef d.sym (s.outs (s.compileUpTo (pos + 1) n)) = some (o', d') := by rw [s.outs_take, h4]
  simp only [Src.findReferences, Src.symAt, h1, h2, Option.map_some, e3]
  show _ = some (s.usesOf (erase s.me d.sym))
  rw [← hc]
  split <;> rfl

theorem findRefAt_none {S : Type} {pos : Nat} : ∀ {os : List (Out S)} {b : Nat},
    (∀ (k : Nat) o, os[k]? = some o → inItem (s.ispan (b + k)) pos = true →
      ∀ r ∈ o.refs, inside (s.span r.2) pos = false) → s.findRefAt pos b os = none
  | [], _, _ => rfl
  | o :: os, b, h => by
    have ih := findRefAt_none (os := os) (b := b + 1) fun k o hk hi => h (k + 1) o (by simpa using hk)
      (by rw [← hi]; congr 1; congr 1; omega)
    unfold Src.findRefAt
    split
    · rename_i hi
      rw [List.find?_eq_none.2 fun r hr => by simp [h 0 o rfl hi r hr]]
      exact ih
    · exact ih

theorem findDefAt_none {S : Type} {pos : Nat} : ∀ {os : List (Out S)} {b : Nat},
    (∀ (k : Nat) o, os[k]? = some o → inItem (s.ispan (b + k)) pos = true →
      ∀ d ∈ o.defs, inside (s.span d.node) pos = false) → s.findDefAt pos b os = none
  | [], _, _ => rfl
  | o :: os, b, h => by
    have ih := findDefAt_none (os := os) (b := b + 1) fun k o hk hi => h (k + 1) o (by simpa using hk)
      (by rw [← hi]; congr 1; congr 1; omega)
    unfold Src.findDefAt
    split
    · rename_i hi
      rw [List.find?_eq_none.2 fun r hr => by simp [h 0 o rfl hi r hr]]
      exact ih
    · exact ih

/-- **Nothing is invented**: at a position in no name and in no import without a module name, both queries say
there is nothing. -/
theorem nothing_elsewhere (h : Laid s) {n pos : Nat}
    (hno : ∀ (k : Nat) i, s.items[k]? = some i → ∀ m ∈ nodesItem i ++ fakeNode i, inside (s.span m) pos = false) :
    (s.findDefinition n pos).1 = none ∧ (s.findReferences n pos).1 = none := by
  have key : ∀ n' (k : Nat) o, (s.outs n')[k]? = some o →
      ∃ i env, s.items[k]? = some i ∧ o.map (erase s.me) = specItem s.me env i := by
    intro n' k o hk
    rw [s.outs_take, List.getElem?_take] at hk
    split at hk
    · have hrules : s.rules[k]? = some (o.map (erase s.me)) := by rw [← s.full_map, List.getElem?_map, hk]; rfl
      exact Src.rules_get hrules
    · exact nomatch hk
  have h1 : ∀ n', s.findRefAt pos 0 (s.outs n') = none := by
    intro n'
    refine findRefAt_none fun k o hk _ r hr => ?_
    obtain ⟨i, env, hi, e⟩ := key n' k o hk
    have hr' : (erase s.me r.1, r.2) ∈ (specItem s.me env i).refs := by
      rw [← e]; exact List.mem_map.2 ⟨r, hr, rfl⟩
    exact hno k i hi r.2 (List.mem_append_left _ (ref_node (h.foreign i (List.mem_of_getElem? hi)) hr').1)
  have h2 : ∀ n', s.findDefAt pos 0 (s.outs n') = none := by
    intro n'
    refine findDefAt_none fun k o hk _ d hd => ?_
    obtain ⟨i, env, hi, e⟩ := key n' k o hk
    have hd' : d.map (erase s.me) ∈ (specItem s.me env i).defs := by
      rw [← e]; exact List.mem_map.2 ⟨d, hd, rfl⟩
    refine hno k i hi d.node ?_
    rcases def_node (h.foreign i (List.mem_of_getElem? hi)) hd' with h3 | h3
    · exact List.mem_append_left _ h3.2
    · exact List.mem_append_right _ h3.2
  simp only [Src.findDefinition, Src.findReferences, Src.symAt, h1, h2, Option.map_none, and_self]

/-- A use of another unit's name (`m.x`) that nothing brings into this unit has no definition to go to, and is
not followed. -/
theorem unexposed_use (h : Laid s) {n k pos m : Nat} {O : SOut} {t : Target} (hn : n ≤ s.items.length)
    (hk : s.rules[k]? = some O) (hr : (t, m) ∈ O.refs) (hp : inside (s.span m) pos = true)
    (he : pos < (s.ispan k).2) (hno : ∀ d ∈ (flat s.rules).defs, d.sym ≠ t) :
    (s.findDefinition n pos).1 = none ∧ (s.findReferences n pos).1 = none := by
  obtain ⟨x, o, ho, hx, rfl, h1, h2⟩ := use_found h hn hk hr hp he
  have hf : findDef x (s.outs (s.compileUpTo (pos + 1) n)) = none := by
    cases hf : findDef x (s.outs (s.compileUpTo (pos + 1) n)) with
    | none => rfl
    | some p =>
      obtain ⟨j, hj, hd, e⟩ := findDef_item (o := p.1) (d := p.2) hf
      have : p.2 ∈ (flat s.full).defs := by
        rw [s.outs_take] at hj
        exact flat_take_sub (flat_mem_defs.2 ⟨j, p.1, hj, hd⟩)
      refine absurd ?_ (hno (p.2.map (erase s.me)) (by rw [flat_map_defs]; exact List.mem_map.2 ⟨_, this, rfl⟩))
      show erase s.me p.2.sym = _
      rw [e]
  simp only [Src.findDefinition, Src.findReferences, Src.symAt, h1, hf, Option.map_none, and_self]

/-! ## A concrete unit, and what goes wrong -/

/-- the unit of `PropResolve` with positions: node `m` is at `4m`, two bytes long -/
def exSrc : Src where
  me := 0
  items := exUnit
  ispan := fun k => match k with
    | 0 => (0, 8)
    | 1 => (8, 20)
    | 2 => (20, 40)
    | 3 => (40, 80)
    | k + 4 => (80 + k, 81 + k)
  span := fun m => (4 * m, 4 * m + 2)

theorem exLaid : Laid exSrc where
  forward k := by
    match k with
    | 0 => decide
    | 1 => decide
    | 2 => decide
    | 3 => decide
    | k + 4 => show 80 + k < 81 + k; omega
  next k := by
    match k with
    | 0 => rfl
    | 1 => rfl
    | 2 => rfl
    | 3 => rfl
    | k + 4 => show 80 + (k + 1) = 81 + k; omega
  within k i hk := by
    match k with
    | 0 => cases hk; decide +kernel
    | 1 => cases hk; decide +kernel
    | 2 => cases hk; decide +kernel
    | 3 => cases hk; decide +kernel
    | k + 4 => exact nomatch hk
  distinct := by decide +kernel
  apart := by
    intro m _ m' _ hne
    show 4 * m + 2 < 4 * m' ∨ 4 * m' + 2 < 4 * m
    omega
  foreign := exUnit_foreign

/-- The name at node 8 (the value of the inner `let`) is a use of the lambda parameter (node 6): whatever was
compiled before, going to the definition from its second byte leads to the parameter. -/
example (n : Nat) (hn : n ≤ 4) : (exSrc.findDefinition n 33).1 = some (24, 26) := by
  refine definition_of_own_use exLaid (k := 2) (m := 8) (b := 6) hn rfl ?_ (by decide) (by decide)
  decide +kernel

/-- the uses of the constructor `C` (node 3), asked for at its definition -/
example (n : Nat) (hn : n ≤ 4) : (exSrc.findReferences n 12).1 = some [(48, 50)] := by
  have h := references_of_definition exLaid (n := n) (k := 1) (pos := 12)
    (D := ⟨.here 3, .ctor (.here 2) [] [.type .int, .type .int] (.fn .int (.fn .int (.named (.here 2) .nil))),
      .export, 3, "C", true, []⟩) (i := exUnit[1]) hn rfl rfl rfl rfl (by decide) (by decide)
  rw [h]
  decide +kernel

/-- what an imported unit exports: a value `map` -/
def exExports : List (Export Sym) := [⟨.value, "map", ⟨7, 0, 0⟩, .value .int []⟩]

/-- `import (map) from "l"; f = map;` -/
def exBare : Src where
  me := 0
  items := [.importI 0 (.ok exExports) none [⟨"map", 1⟩], .valueI false (some ⟨"f", 2⟩) none (.name (some ⟨"map", 3⟩))]
  ispan := fun k => if k = 0 then (0, 22) else (22, 31)
  span := fun m => match m with
    | 0 => (0, 22)
    | 1 => (8, 11)
    | 2 => (23, 24)
    | _ => (27, 30)

/-- In an import that names no module, a position in an exposed name is taken for the whole import
(`resolve.rs:141-149` gives the module the span of the item, and `api.rs:31-35` takes the first definition around the
position): go to definition answers with the import, and find references says there are none, although asking from
the use finds it. -/
theorem bare_import_hides_exposed_names :
    (exBare.findDefinition 2 9).1 = some (0, 22) ∧ (exBare.findReferences 2 9).1 = some [] ∧
    (exBare.findDefinition 2 28).1 = some (8, 11) ∧ (exBare.findReferences 2 28).1 = some [(27, 30)] := by
  decide +kernel

/-- `import l from "l"; a = l.map; import (map) from "l";` -/
def exLate : Src where
  me := 0
  items := [.importI 0 (.ok exExports) (some ⟨"l", 1⟩) [],
    .valueI false (some ⟨"a", 2⟩) none (.nsName (some ⟨"l", 3⟩) (some ⟨"map", 4⟩)),
    .importI 5 (.ok exExports) none [⟨"map", 6⟩]]
  ispan := fun k => match k with
    | 0 => (0, 19)
    | 1 => (19, 30)
    | _ => (30, 53)
  span := fun m => match m with
    | 1 => (7, 8)
    | 2 => (20, 21)
    | 3 => (24, 25)
    | 4 => (26, 29)
    | 5 => (31, 53)
    | _ => (39, 42)

/-- Without the condition that an item up to the use brings the target in, the answer depends on what was asked
before: a use `l.map` of a name only a later import exposes leads nowhere in a fresh unit, and to the later import
once it has been compiled. -/
theorem later_exposure_depends_on_history :
    (exLate.findDefinition 0 27).1 = none ∧ (exLate.findDefinition 3 27).1 = some (39, 42) ∧
    (exLate.findReferences 0 27).1 = none ∧ (exLate.findReferences 3 27).1 = some [(26, 29)] := by
  decide +kernel

end Tic.Api
