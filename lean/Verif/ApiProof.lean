import Verif.ApiNodes

/-!
# Lemmas about the editor queries
-/

namespace Tic.Api

open Tic.Resolve

/-! ## Lists -/

theorem countP_unique {α : Type} {p : α → Bool} : ∀ {l : List α}, l.countP p ≤ 1 →
    ∀ {a b : α}, a ∈ l → b ∈ l → p a = true → p b = true → a = b
  | [], _, _, _, h, _, _, _ => nomatch h
  | c :: l, h, a, b, ha, hb, pa, pb => by
    rw [List.countP_cons] at h
    by_cases pc : p c = true
    · rw [if_pos pc] at h
      have h0 : l.countP p = 0 := by omega
      rw [List.countP_eq_zero] at h0
      rcases List.mem_cons.1 ha with rfl | ha
      · rcases List.mem_cons.1 hb with rfl | hb
        · rfl
        · exact absurd pb (h0 b hb)
      · exact absurd pa (h0 a ha)
    · rcases List.mem_cons.1 ha with rfl | ha
      · exact absurd pa pc
      · rcases List.mem_cons.1 hb with rfl | hb
        · exact absurd pb pc
        · exact countP_unique (by omega) ha hb pa pb

theorem flatMap_index {α β : Type} {f : α → List β} : ∀ {l : List α}, (l.flatMap f).Nodup →
    ∀ {i j : Nat} {a b : α} {x : β}, l[i]? = some a → l[j]? = some b → x ∈ f a → x ∈ f b → i = j
  | [], _, i, _, _, _, _, h, _, _, _ => by simp at h
  | c :: l, hn, i, j, a, b, x, hi, hj, ha, hb => by
    rw [List.flatMap_cons, List.nodup_append] at hn
    obtain ⟨-, h2, h3⟩ := hn
    cases i with
    | zero =>
      cases j with
      | zero => rfl
      | succ j =>
        simp only [List.getElem?_cons_zero, Option.some.injEq, List.getElem?_cons_succ] at hi hj
        subst hi
        exact absurd rfl (h3 x ha x (List.mem_flatMap.2 ⟨b, List.mem_of_getElem? hj, hb⟩))
    | succ i =>
      cases j with
      | zero =>
        simp only [List.getElem?_cons_zero, Option.some.injEq, List.getElem?_cons_succ] at hi hj
        subst hj
        exact absurd rfl (h3 x hb x (List.mem_flatMap.2 ⟨a, List.mem_of_getElem? hi, ha⟩))
      | succ j =>
        simp only [List.getElem?_cons_succ] at hi hj
        rw [flatMap_index h2 hi hj ha hb]

theorem flatMap_single {α β : Type} {g : α → List β} : ∀ {l : List α} {k : Nat} {a : α},
    l[k]? = some a → (∀ (j : Nat) b, l[j]? = some b → j ≠ k → g b = []) → l.flatMap g = g a
  | [], k, a, h, _ => by simp at h
  | c :: l, k, a, h, hz => by
    rw [List.flatMap_cons]
    cases k with
    | zero =>
      simp only [List.getElem?_cons_zero, Option.some.injEq] at h
      subst h
      have : l.flatMap g = [] := by
        rw [List.flatMap_eq_nil_iff]
        intro b hb
        obtain ⟨j, hj⟩ := List.mem_iff_getElem?.1 hb
        exact hz (j + 1) b (by simpa using hj) (by omega)
      rw [this, List.append_nil]
    | succ k =>
      rw [hz 0 c rfl (by omega), List.nil_append]
      exact flatMap_single (by simpa using h) fun j b hj hne => hz (j + 1) b (by simpa using hj) (by omega)

theorem find_unique {α : Type} {p : α → Bool} {l : List α} {a : α} (ha : a ∈ l) (pa : p a = true)
    (hu : ∀ b ∈ l, p b = true → b = a) : l.find? p = some a := by
  cases h : l.find? p with
  | none => exact absurd pa (by simpa using List.find?_eq_none.1 h a ha)
  | some b => rw [hu b (List.mem_of_find?_eq_some h) (by simpa using List.find?_some h)]

theorem filterMap_nodup_inj {α β : Type} {f : α → Option β} : ∀ {l : List α}, (l.filterMap f).Nodup →
    ∀ {a b : α} {x : β}, a ∈ l → b ∈ l → f a = some x → f b = some x → a = b
  | [], _, _, _, _, h, _, _, _ => nomatch h
  | c :: l, hn, a, b, x, ha, hb, fa, fb => by
    rw [List.filterMap_cons] at hn
    have key : ∀ {d : α}, d ∈ l → f d = some x → f c = some x → False := by
      intro d hd fd fc
      rw [fc] at hn
      exact (List.nodup_cons.1 hn).1 (List.mem_filterMap.2 ⟨d, hd, fd⟩)
    have hn' : (l.filterMap f).Nodup := by
      cases hc : f c with
      | none => rw [hc] at hn; exact hn
      | some y => rw [hc] at hn; exact (List.nodup_cons.1 hn).2
    rcases List.mem_cons.1 ha with e | ha'
    · rcases List.mem_cons.1 hb with e' | hb'
      · rw [e, e']
      · exact (key hb' fb (e ▸ fa)).elim
    · rcases List.mem_cons.1 hb with e' | hb'
      · exact (key ha' fa (e' ▸ fb)).elim
      · exact filterMap_nodup_inj hn' ha' hb' fa fb

/-! ## Prefixes of a unit -/

theorem resolveUnit_take {me : Nat} : ∀ (is : List Item) (scope : Scope) (next n : Nat),
    resolveUnit me (is.take n) scope next = (resolveUnit me is scope next).take n
  | _, _, _, 0 => by simp [resolveUnit]
  | [], _, _, n + 1 => by simp [resolveUnit]
  | i :: is, scope, next, n + 1 => by
    rw [List.take_succ_cons, resolveUnit, resolveUnit, List.take_succ_cons, resolveUnit_take is]

theorem resolveUnit_length {me : Nat} : ∀ (is : List Item) (scope : Scope) (next : Nat),
    (resolveUnit me is scope next).length = is.length
  | [], _, _ => rfl
  | i :: is, scope, next => by simp [resolveUnit, resolveUnit_length is]

/-- the whole unit -/
def Src.full (s : Src) : List (Out Sym) := resolveUnit s.me s.items [{}] 0

theorem Src.outs_take (s : Src) (n : Nat) : s.outs n = s.full.take n := resolveUnit_take ..

/-- what the scope rules say about the unit, item by item -/
def Src.rules (s : Src) : List SOut := specUnit s.me s.items []

theorem Src.full_map (s : Src) : s.full.map (Out.map (erase s.me)) = s.rules := resolve_meets_spec ..

theorem Src.full_length (s : Src) : s.full.length = s.items.length := resolveUnit_length ..

theorem Src.rules_get {s : Src} {k : Nat} {o : SOut} (h : s.rules[k]? = some o) :
    ∃ i env, s.items[k]? = some i ∧ o = specItem s.me env i := by
  have hl : s.rules.length = s.items.length := by rw [← s.full_map, List.length_map, s.full_length]
  have hk : k < s.items.length := by
    rw [← hl]
    exact (List.getElem?_eq_some_iff.1 h).1
  have := specUnit_get s.items (me := s.me) [] k _ (List.getElem?_eq_getElem hk)
  obtain ⟨env, h', -⟩ : ∃ env, s.rules[k]? = some (specItem s.me env s.items[k]) ∧ True := ⟨_, this, trivial⟩
  rw [h] at h'
  exact ⟨_, env, List.getElem?_eq_getElem hk, Option.some.inj h'⟩

/-! ## How much is compiled -/

theorem Src.advance_spec {s : Src} {offset : Nat} : ∀ (fuel n : Nat), fuel = s.items.length - n → n ≤ s.items.length →
    n ≤ s.advance offset fuel n ∧ s.advance offset fuel n ≤ s.items.length ∧
    (offset ≤ s.compiledLength (s.advance offset fuel n) ∨ s.advance offset fuel n = s.items.length)
  | 0, n, hf, hn => by simp only [Src.advance]; omega
  | fuel + 1, n, hf, hn => by
    simp only [Src.advance]
    split
    · rename_i h
      rcases h with h | h
      · exact ⟨Nat.le_refl _, hn, .inl h⟩
      · exact ⟨Nat.le_refl _, hn, .inr (by omega)⟩
    · have := Src.advance_spec (s := s) (offset := offset) fuel (n + 1) (by omega) (by omega)
      exact ⟨by omega, this.2⟩

theorem Src.compileUpTo_spec {s : Src} (offset : Nat) {n : Nat} (hn : n ≤ s.items.length) :
    n ≤ s.compileUpTo offset n ∧ s.compileUpTo offset n ≤ s.items.length ∧
    (offset ≤ s.compiledLength (s.compileUpTo offset n) ∨ s.compileUpTo offset n = s.items.length) :=
  Src.advance_spec _ _ rfl hn

/-! ## Where names are -/

/-- What the parser guarantees about positions: items are not empty (C21) and follow each other (C20); the names of an item are inside
it and not empty; different names are different nodes and do not touch; and imported units are other units.
`Tic.Units.unit_laid` proves this of every text. -/
structure Laid (s : Src) : Prop where
  forward : ∀ k, (s.ispan k).1 < (s.ispan k).2
  next : ∀ k, (s.ispan (k + 1)).1 = (s.ispan k).2
  within : ∀ (k : Nat) i, s.items[k]? = some i → ∀ m ∈ nodesItem i,
    (s.ispan k).1 ≤ (s.span m).1 ∧ (s.span m).1 < (s.span m).2 ∧ (s.span m).2 ≤ (s.ispan k).2
  distinct : (s.items.flatMap fun i => nodesItem i ++ fakeNode i).Nodup
  apart : ∀ m ∈ s.items.flatMap nodesItem, ∀ m' ∈ s.items.flatMap nodesItem, m ≠ m' →
    (s.span m).2 < (s.span m').1 ∨ (s.span m').2 < (s.span m).1
  foreign : ∀ i ∈ s.items, ForeignImports s.me i

theorem Laid.mono {s : Src} (h : Laid s) : ∀ (i j : Nat), i < j → (s.ispan i).2 ≤ (s.ispan j).1
  | i, 0, hij => absurd hij (by omega)
  | i, j + 1, hij => by
    rw [h.next]
    by_cases e : i = j
    · subst e; exact Nat.le_refl _
    · have := h.mono i j (by omega)
      have := h.forward j
      omega

theorem Laid.length_lt {s : Src} (h : Laid s) {i j : Nat} (hij : i < j) : s.compiledLength i < s.compiledLength j := by
  cases j with
  | zero => omega
  | succ j =>
    have hj := h.forward j
    cases i with
    | zero => simp only [Src.compiledLength]; omega
    | succ i =>
      have := h.mono i j (by omega)
      simp only [Src.compiledLength]; omega

/-- All definitions and uses of a unit. -/
def flat {S : Type} (os : List (Out S)) : Out S := ⟨os.flatMap (·.defs), os.flatMap (·.refs), os.flatMap (·.errs)⟩

theorem occ_flat (k : Nat) : ∀ (os : List SOut), occ (flat os) k = (os.map fun o => occ o k).sum
  | [] => rfl
  | o :: os => by
    have := occ_flat k os
    simp only [occ, flat] at this ⊢
    simp only [List.flatMap_cons, List.countP_append, List.map_cons, List.sum_cons]
    omega

theorem occ_unit {s : Src} (h : Laid s) (k : Nat) : occ (flat s.rules) k ≤ 1 := by
  have h1 : ∀ (is : List Item) (env : Env), (∀ i ∈ is, ForeignImports s.me i) →
      occ (flat (specUnit s.me is env)) k ≤ (is.flatMap fun i => nodesItem i ++ fakeNode i).count k := by
    intro is
    induction is with
    | nil => intro env _; exact Nat.zero_le _
    | cons i is ih =>
      intro env hf
      have := ih (env.after (specItem s.me env i).defs) fun j hj => hf j (List.mem_cons_of_mem _ hj)
      rw [occ_flat] at this ⊢
      simp only [specUnit, List.map_cons, List.sum_cons, List.flatMap_cons, List.count_append] at this ⊢
      have h2 := occ_specItem (me := s.me) env i (hf i List.mem_cons_self) k
      rw [List.count_append] at h2
      omega
  exact Nat.le_trans (h1 s.items [] h.foreign) (List.nodup_iff_count.1 h.distinct k)

theorem flat_mem_refs {S : Type} {os : List (Out S)} {r : S × Nat} :
    r ∈ (flat os).refs ↔ ∃ (k : Nat) (o : Out S), os[k]? = some o ∧ r ∈ o.refs := by
  simp only [flat, List.mem_flatMap]
  constructor
  · rintro ⟨o, ho, hr⟩
    obtain ⟨k, hk⟩ := List.mem_iff_getElem?.1 ho
    exact ⟨k, o, hk, hr⟩
  · rintro ⟨k, o, hk, hr⟩
    exact ⟨o, List.mem_of_getElem? hk, hr⟩

theorem flat_mem_defs {S : Type} {os : List (Out S)} {d : Def S} :
    d ∈ (flat os).defs ↔ ∃ (k : Nat) (o : Out S), os[k]? = some o ∧ d ∈ o.defs := by
  simp only [flat, List.mem_flatMap]
  constructor
  · rintro ⟨o, ho, hr⟩
    obtain ⟨k, hk⟩ := List.mem_iff_getElem?.1 ho
    exact ⟨k, o, hk, hr⟩
  · rintro ⟨k, o, hk, hr⟩
    exact ⟨o, List.mem_of_getElem? hk, hr⟩

theorem specExpose_refs (unit : List (Export Target)) : ∀ ns, (specExpose unit ns).refs = []
  | [] => rfl
  | n :: ns => by
    simp only [specExpose, SOut.append_def, specExpose_refs unit ns, List.append_nil]
    split <;> rfl

theorem specExpose_defs (unit : List (Export Target)) : ∀ ns, ∀ d ∈ (specExpose unit ns).defs,
    d.node ∈ ns.map (·.node) ∧ d.hasName = true
  | [], d, h => nomatch h
  | n :: ns, d, h => by
    simp only [specExpose, SOut.append_def] at h
    rcases List.mem_append.1 h with h | h
    · split at h
      · cases h
      · simp only [exposedDefs, List.mem_filterMap] at h
        obtain ⟨_, -, h⟩ := h
        obtain ⟨e, -, rfl⟩ := Option.map_eq_some_iff.1 h
        simp
    · obtain ⟨a, b⟩ := specExpose_defs unit ns d h
      exact ⟨List.mem_cons_of_mem _ a, b⟩

/-- uses are at names of items that are not imports -/
theorem ref_node {me : Nat} {env : Env} {i : Item} (hf : ForeignImports me i) {r : Target × Nat}
    (hr : r ∈ (specItem me env i).refs) : r.2 ∈ nodesItem i ∧ isImport i = false := by
  have hi : isImport i = false := by
    match i with
    | .importI node .noPath name exposed => cases hr
    | .importI node (.failed e m) name exposed => cases hr
    | .importI node (.ok unit) name exposed =>
      simp only [specItem, specImport, SOut.append_def, specExpose_refs, List.append_nil] at hr
      cases name <;> cases hr
    | .typeI .. => rfl
    | .valueI .. => rfl
  have h1 : 0 < occ (specItem me env i) r.2 :=
    Nat.lt_of_lt_of_le (List.countP_pos_iff.2 ⟨r, hr, by simp⟩) (Nat.le_add_right _ _)
  have := List.count_pos_iff.1 (Nat.lt_of_lt_of_le h1 (occ_specItem env i hf _))
  refine ⟨?_, hi⟩
  match i, hi with
  | .typeI .., _ => simpa [fakeNode] using this
  | .valueI .., _ => simpa [fakeNode] using this

/-- a named definition is at a name of its item -/
theorem def_node {me : Nat} {env : Env} {i : Item} {d : Def Target} (hf : ForeignImports me i)
    (hd : d ∈ (specItem me env i).defs) :
    (d.hasName = true ∧ d.node ∈ nodesItem i) ∨ (d.hasName = false ∧ d.node ∈ fakeNode i) := by
  by_cases hi : isImport i = true
  · match i, hf with
    | .importI node .noPath name exposed, _ => cases hd
    | .importI node (.failed e m) name exposed, _ => cases hd
    | .importI node (.ok unit) none exposed, _ =>
      simp only [specItem, specImport, SOut.append_def] at hd
      rcases List.mem_append.1 hd with hd | hd
      · rw [List.mem_singleton.1 hd]; exact .inr ⟨rfl, List.mem_singleton.2 rfl⟩
      · have := specExpose_defs _ _ _ hd
        exact .inl ⟨this.2, List.mem_append_right _ this.1⟩
    | .importI node (.ok unit) (some n) exposed, _ =>
      simp only [specItem, specImport, SOut.append_def] at hd
      rcases List.mem_append.1 hd with hd | hd
      · rw [List.mem_singleton.1 hd]; exact .inl ⟨rfl, List.mem_append_left _ (List.mem_singleton.2 rfl)⟩
      · have := specExpose_defs _ _ _ hd
        exact .inl ⟨this.2, List.mem_append_right _ this.1⟩
  · have hi : isImport i = false := by simpa using hi
    obtain ⟨e1, e2⟩ := (own_specItem (me := me) env i hi).all d hd
    have h1 : 0 < occ (specItem me env i) d.node :=
      Nat.lt_of_lt_of_le (List.countP_pos_iff.2 ⟨d, hd, by simp [e1, isHere]⟩) (Nat.le_add_left _ _)
    have := List.count_pos_iff.1 (Nat.lt_of_lt_of_le h1 (occ_specItem env i hf _))
    refine .inl ⟨e2, ?_⟩
    match i, hi with
    | .typeI .., _ => simpa [fakeNode] using this
    | .valueI .., _ => simpa [fakeNode] using this

end Tic.Api
