/-
C54: what the editor queries assume about positions holds of every text.
-/
import Verif.UnitSpan
import Verif.PropApi

namespace Tic.Units

open Tic.Parser
open Tic.Lower (Text Good VItem itemOf item)
open Tic.Lexer (rules)
open Tic.Resolve (Item Export Sym ForeignImports)
open Tic.Api (nodesItem fakeNode Laid Src)
open Tic.Hover (descendants nodeId)

section
variable {S D I : Type}

/-! ### The driver, with the fact that no item is empty -/

theorem loop_inv {p : Phases S D I} (hp : p.Lawful) {r src offset} {Inv : List I → List Tok → List Tok → Prop}
    (step : ∀ items cs i ds rest, ds ≠ [] → Inv items cs (ds ++ rest) → parseOneItem (ds ++ rest) (bytes cs) = some (p.syn i, p.parseErrors i) →
      (p.syn i).leaves = place (bytes cs) ds → Inv (items ++ [i]) (cs ++ ds) rest) :
    ∀ n (c : Comp S D I) {cs left}, Covers p r src c.items cs left → Inv c.items cs left → src.length - p.compiledLength c.items < n →
    ∃ c' cs' left', p.loop r src offset n c = some c' ∧ Covers p r src c'.items cs' left' ∧ Inv c'.items cs' left'
  | 0, c, _, _, _, _, h => absurd h (Nat.not_lt_zero _)
  | n + 1, c, cs, left, h, hI, hn => by
    unfold Phases.loop
    by_cases hs : offset ≤ p.compiledLength c.items ∨ p.compiledLength c.items = src.length
    · rw [if_pos hs]; exact ⟨c, cs, left, rfl, h, hI⟩
    · rw [if_neg hs]
      obtain ⟨c1, i, ds, rest, h1, h2, rfl, h4, h5, h6, h7⟩ := Grammar.round_reads hp h (fun e => hs (.inr e))
      have := h6.le
      have hne : ds ≠ [] := by
        rintro rfl
        rw [h.len, h6.len, List.append_nil] at h7
        omega
      have hI1 := step _ _ i ds rest hne hI h4 h5
      rw [← h2] at hI1
      obtain ⟨c2, cs2, left2, g1, g2, g3⟩ := loop_inv hp step n c1 h6 hI1 (by omega)
      exact ⟨c2, cs2, left2, by rw [h1]; exact g1, g2, g3⟩

theorem compileUpTo_inv {p : Phases S D I} (hp : p.Lawful) {r src offset} {Inv : List I → List Tok → List Tok → Prop}
    (step : ∀ items cs i ds rest, ds ≠ [] → Inv items cs (ds ++ rest) → parseOneItem (ds ++ rest) (bytes cs) = some (p.syn i, p.parseErrors i) →
      (p.syn i).leaves = place (bytes cs) ds → Inv (items ++ [i]) (cs ++ ds) rest) {items cs left} (h : Covers p r src items cs left) (hI : Inv items cs left) :
    ∃ items' cs' left', p.compileUpTo r src offset items = some items' ∧ Covers p r src items' cs' left' ∧ Inv items' cs' left' := by
  unfold Phases.compileUpTo
  by_cases hs : offset ≤ p.compiledLength items
  · rw [if_pos hs]; exact ⟨items, cs, left, rfl, h, hI⟩
  · rw [if_neg hs]
    obtain ⟨c', cs', left', h1, h2, h3⟩ := loop_inv hp (offset := offset) step (src.length + 1)
      { scope := items.foldl p.addScope p.scope0, defs := items.foldl p.addDefs p.defs0, items } h hI (by simp only; omega)
    exact ⟨c'.items, cs', left', by simp [h1], h2, h3⟩

theorem requests_inv {p : Phases S D I} (hp : p.Lawful) {r src} {Inv : List I → List Tok → List Tok → Prop}
    (step : ∀ items cs i ds rest, ds ≠ [] → Inv items cs (ds ++ rest) → parseOneItem (ds ++ rest) (bytes cs) = some (p.syn i, p.parseErrors i) →
      (p.syn i).leaves = place (bytes cs) ds → Inv (items ++ [i]) (cs ++ ds) rest) : ∀ (os : List Nat) {items cs left}, Covers p r src items cs left → Inv items cs left →
    ∃ items' cs' left', p.requests r src os items = some items' ∧ Covers p r src items' cs' left' ∧ Inv items' cs' left'
  | [], items, cs, left, h, hI => ⟨items, cs, left, rfl, h, hI⟩
  | o :: os, items, cs, left, h, hI => by
    obtain ⟨items1, cs1, left1, h1, h2, h3⟩ := compileUpTo_inv hp (offset := o) step h hI
    obtain ⟨items2, cs2, left2, g1, g2, g3⟩ := requests_inv hp step os h2 h3
    exact ⟨items2, cs2, left2, by simp only [Phases.requests, h1, Option.bind_some]; exact g1, g2, g3⟩

/-! ### What is known of the trees of a file -/

/-- The trees of a file: they follow each other, none is empty, their tokens are those of the text, names are names, and node ids differ. -/
structure Trees (toks : List Tok) (ts : List Elem) : Prop where
  tiles : ∃ e, Tiles 0 e ts
  pos : ∀ t ∈ ts, t.full.1 < t.full.2
  good : ∀ t ∈ ts, Good t
  ids : ∀ t ∈ ts, t.ids.Nodup
  leaves : ∀ t ∈ ts, ∀ x ∈ t.leaves, x ∈ place 0 toks ∧ t.full.1 ≤ x.2.1 ∧ x.2.2 ≤ t.full.2
  spans : ∀ t ∈ ts, (t.leaves.map Prod.snd).Nodup

/-- The invariant of the driver. -/
structure Grown (p : Phases S D I) (all : List Tok) (items : List I) (cs left : List Tok) : Prop where
  split : all = cs ++ left
  tiles : Tiles 0 (bytes cs) (items.map p.syn)
  trees : Trees all (items.map p.syn)

theorem place_end : ∀ {ts : List Tok} {p : Nat} {x}, x ∈ place p ts → x.2.2 ≤ p + bytes ts
  | t :: ts, p, x, h => by
    rw [place, List.mem_cons] at h
    rw [bytes_cons]
    rcases h with h | h
    · subst h; simp only; omega
    · have := place_end h
      omega

theorem grown_step {p : Phases S D I} {all : List Tok} (hpos : ∀ t ∈ all, 0 < t.text.length) : ∀ items cs i ds rest, ds ≠ [] → Grown p all items cs (ds ++ rest) →
    parseOneItem (ds ++ rest) (bytes cs) = some (p.syn i, p.parseErrors i) → (p.syn i).leaves = place (bytes cs) ds → Grown p all (items ++ [i]) (cs ++ ds) rest := by
  intro items cs i ds rest hne h hp hl
  obtain ⟨root, errs, ds', rest', h1, h2, h3, h4, h5, ⟨n, h6⟩, -⟩ := parse_total (ds ++ rest) (bytes cs)
  rw [hp] at h1
  simp only [Option.some.injEq, Prod.mk.injEq] at h1
  obtain ⟨e1, e2⟩ := h1
  rw [← e1] at h3 h4 h5 h6
  have pl : ∀ (ts : List Tok) n, (place n ts).length = ts.length := by
    intro ts
    induction ts with
    | nil => intro _; rfl
    | cons t ts ih => intro n; simp [place, ih]
  have hd : ds = ds' := by
    have : (place (bytes cs) ds).length = (place (bytes cs) ds').length := by rw [← hl, ← h3]
    rw [pl, pl] at this
    exact (List.append_inj h2 this).1
  subst hd
  have hmem : ∀ t ∈ ds, 0 < t.text.length := fun t ht => hpos t (by rw [h.split]; simp [ht])
  have hb : 0 < bytes ds := by
    match ds, hne with
    | d :: ds, _ => rw [bytes_cons]; have := hmem d (by simp); omega
  refine ⟨by rw [h.split, List.append_assoc], ?_, ?_⟩
  · rw [List.map_append, bytes_append]
    refine h.tiles.append ?_
    simp [Tiles, h4]
  · have key : ∀ {P : Elem → Prop}, (∀ t ∈ items.map p.syn, P t) → P (p.syn i) → ∀ t ∈ (items ++ [i]).map p.syn, P t := by
      intro P h1 h2 t ht
      rw [List.map_append, List.mem_append] at ht
      rcases ht with ht | ht
      · exact h1 t ht
      · simp at ht; subst ht; exact h2
    refine ⟨⟨bytes cs + bytes ds, ?_⟩, key h.trees.pos ?_, key h.trees.good ?_, key h.trees.ids ?_, key h.trees.leaves ?_, key h.trees.spans ?_⟩
    · rw [List.map_append]
      refine h.tiles.append ?_
      simp [Tiles, h4]
    · rw [h4]; simp only; omega
    · exact Lower.parse_good hp
    · rw [h6]; exact List.nodup_range
    · intro x hx
      rw [h3] at hx
      have hle := place_le (k := x.1) (sp := x.2) hx
      have hend := place_end hx
      rw [h4]
      refine ⟨?_, hle.1, hend⟩
      rw [h.split, place_append, place_append, List.mem_append, List.mem_append, Nat.zero_add]
      exact .inr (.inl hx)
    · rw [h3]; exact place_nodup hmem

/-! ### Numbers of nodes -/

theorem le_foldr : ∀ {l : List Nat} {x}, x ∈ l → x ≤ l.foldr max 0
  | y :: l, x, h => by
    rw [List.foldr_cons]
    rcases List.mem_cons.1 h with rfl | h
    · exact Nat.le_max_left ..
    · exact Nat.le_trans (le_foldr h) (Nat.le_max_right ..)

theorem id_lt {ts : List Elem} {t : Elem} (ht : t ∈ ts) {x : Nat} (hx : x ∈ t.ids) : x < width ts :=
  Nat.lt_succ_of_le (le_foldr (List.mem_flatMap.2 ⟨t, ht, hx⟩))

theorem nodeNo_div {w k x : Nat} (h : x < w) : nodeNo w k x / w = k ∧ nodeNo w k x % w = x := by
  unfold nodeNo
  have hw : 0 < w := by omega
  refine ⟨?_, ?_⟩
  · rw [Nat.add_comm, Nat.add_mul_div_right _ _ hw, Nat.div_eq_of_lt h, Nat.zero_add]
  · rw [Nat.add_comm, Nat.add_mul_mod_self_right, Nat.mod_eq_of_lt h]

theorem nodeId_mem {t d : Elem} (hd : d ∈ descendants t) : nodeId d ∈ t.ids := by
  rw [← Hover.ids_eq]; exact List.mem_map.2 ⟨d, hd, rfl⟩

/-- The span of a node of a tree. -/
theorem spanAt_node {ts : List Elem} {k : Nat} {t d : Elem} (hk : ts[k]? = some t) (hn : t.ids.Nodup) (hd : d ∈ descendants t) :
    spanAt ts (nodeNo (width ts) k (nodeId d)) = spanOf d := by
  obtain ⟨h1, h2⟩ := nodeNo_div (k := k) (id_lt (List.mem_of_getElem? hk) (nodeId_mem hd))
  unfold spanAt
  rw [h1, h2, hk]
  simp only
  have hf : (descendants t).find? (fun e => nodeId e == nodeId d) = some d := by
    cases hx : (descendants t).find? (fun e => nodeId e == nodeId d) with
    | none =>
      have := List.find?_eq_none.1 hx d hd
      simp at this
    | some e =>
      have h1 := List.mem_of_find?_eq_some hx
      have h2 : nodeId e = nodeId d := by simpa using List.find?_some hx
      rw [Hover.id_unique hn h1 hd h2]
  rw [hf]

theorem itemsFrom_get {lookup src w} : ∀ {ts : List Elem} {j k : Nat} {i : Item}, (itemsFrom lookup src w j ts)[k]? = some i →
    ∃ t, ts[k]? = some t ∧ i = toItemO lookup (nodeNo w (j + k)) (item ⟨t.full.1, src.drop t.full.1⟩ t)
  | [], j, k, i, h => by simp [itemsFrom] at h
  | t :: ts, j, 0, i, h => by
    simp only [itemsFrom, List.getElem?_cons_zero, Option.some.injEq] at h
    exact ⟨t, rfl, by rw [← h]; rfl⟩
  | t :: ts, j, k + 1, i, h => by
    simp only [itemsFrom, List.getElem?_cons_succ] at h
    obtain ⟨t', h1, h2⟩ := itemsFrom_get h
    exact ⟨t', by simpa using h1, by rw [h2]; congr 2; omega⟩

theorem itemsFrom_length {lookup src w} : ∀ {ts : List Elem} {j : Nat}, (itemsFrom lookup src w j ts).length = ts.length
  | [], _ => rfl
  | t :: ts, j => by simp [itemsFrom, itemsFrom_length (ts := ts)]

/-- The nodes of an item of the unit are nodes of its tree. -/
theorem root_le (lookup : Lookup) (nd : Nat → Nat) (m : Nat) (s : Lower.Source) (t : Elem) :
    (nodesItem (toItemO lookup nd (item s t))).count m ≤ ids nd m (nameIds t) ∧
    (nodesItem (toItemO lookup nd (item s t)) ++ fakeNode (toItemO lookup nd (item s t))).count m ≤ ids nd m t.ids := by
  cases h : item s t with
  | none => simp [toItemO, nodesItem, fakeNode, Resolve.usesAnn, Resolve.optNode, Api.nodesExpr]
  | some v =>
    match t, h with
    | .node id k sp f cs, h =>
      rw [Lower.item] at h
      have hm := List.mem_of_getElem? h
      obtain ⟨c, hc, hv⟩ := List.mem_filterMap.1 hm
      obtain ⟨g1, g2⟩ := item_le nd m s lookup hv
      have hsub : ∀ {ds : List Elem}, c ∈ ds → ids nd m (nameIds c) ≤ ids nd m (nameIdsIn ds) ∧ ids nd m c.ids ≤ ids nd m (Elem.ids.go ds) := by
        intro ds
        induction ds with
        | nil => intro h; cases h
        | cons d ds ih =>
          intro h
          rw [nameIdsIn_cons, Elem.ids.go, ids_append, ids_append]
          rcases List.mem_cons.1 h with rfl | h
          · omega
          · have := ih h; omega
      obtain ⟨k1, k2⟩ := hsub hc
      simp only [toItemO]
      rw [nameIds_node, ids_append, Elem.ids, List.count_append]
      have : ids nd m (id :: Elem.ids.go cs) = [nd id].count m + ids nd m (Elem.ids.go cs) := by
        rw [← List.singleton_append, ids_append]; rfl
      omega

theorem node_is_name {lookup nd m s t} (h : m ∈ nodesItem (toItemO lookup nd (item s t))) : ∃ d ∈ nameNodes t, m = nd (nodeId d) := by
  have h1 := List.count_pos_iff.2 h
  have h2 := (root_le lookup nd m s t).1
  have h3 : 0 < ((nameIds t).map nd).count m := Nat.lt_of_lt_of_le h1 h2
  obtain ⟨x, hx, rfl⟩ := List.mem_map.1 (List.count_pos_iff.1 h3)
  obtain ⟨d, hd, rfl⟩ := List.mem_map.1 hx
  exact ⟨d, hd, rfl⟩

theorem count_no {w j m : Nat} : ∀ {l : List Nat}, (∀ x ∈ l, x < w) → (l.map (nodeNo w j)).count m ≤ l.count (m % w)
  | [], _ => by simp
  | x :: l, h => by
    have ih := count_no (m := m) (j := j) fun x hx => h x (List.mem_cons_of_mem _ hx)
    rw [List.map_cons, List.count_cons, List.count_cons]
    by_cases e : nodeNo w j x = m
    · have : x = m % w := by rw [← e]; exact (nodeNo_div (h x (by simp))).2.symm
      rw [if_pos (by simpa using e), if_pos (by simpa using this)]
      omega
    · rw [if_neg (by simpa using e)]
      omega

theorem count_items {lookup src w m} : ∀ {ts : List Elem} {j : Nat}, (∀ t ∈ ts, t.ids.Nodup ∧ ∀ x ∈ t.ids, x < w) →
    ((itemsFrom lookup src w j ts).flatMap fun i => nodesItem i ++ fakeNode i).count m ≤ if j ≤ m / w then 1 else 0
  | [], j, _ => by simp [itemsFrom]
  | t :: ts, j, h => by
    have ih := count_items (lookup := lookup) (src := src) (m := m) (j := j + 1) fun t ht => h t (List.mem_cons_of_mem _ ht)
    obtain ⟨h1, h2⟩ := h t (by simp)
    have hr := (root_le lookup (nodeNo w j) m ⟨t.full.1, src.drop t.full.1⟩ t).2
    have hc : ids (nodeNo w j) m t.ids ≤ 1 := Nat.le_trans (count_no h2) (List.nodup_iff_count.1 h1 _)
    have hz : j ≠ m / w → ids (nodeNo w j) m t.ids = 0 := by
      intro hj
      refine List.count_eq_zero.2 fun hm => ?_
      obtain ⟨x, hx, rfl⟩ := List.mem_map.1 hm
      exact hj (nodeNo_div (h2 x hx)).1.symm
    simp only [itemsFrom, List.flatMap_cons]
    rw [List.count_append]
    by_cases hj : j = m / w
    · rw [if_neg (by omega)] at ih
      rw [if_pos (by omega)]
      omega
    · have := hz hj
      by_cases hj' : j ≤ m / w
      · rw [if_pos (by omega)] at ih
        rw [if_pos hj']
        omega
      · rw [if_neg (by omega)] at ih
        rw [if_neg hj']
        omega

/-! ### Extents -/

theorem tiles_next : ∀ {ts : List Elem} {a e : Nat}, Tiles a e ts → ∀ {k : Nat} {t u : Elem}, ts[k]? = some t → ts[k + 1]? = some u → u.full.1 = t.full.2
  | x :: y :: ts, a, e, h, 0, t, u, ht, hu => by
    simp at ht hu
    subst ht; subst hu
    exact h.2.1
  | [x], a, e, h, 0, t, u, ht, hu => by simp at hu
  | x :: ts, a, e, h, k + 1, t, u, ht, hu => tiles_next h.2 (k := k) (by simpa using ht) (by simpa using hu)

theorem extent_some {ts : List Elem} {k : Nat} {t : Elem} (h : ts[k]? = some t) : extent ts k = t.full := by simp [extent, h]
theorem extent_none {ts : List Elem} {k : Nat} (h : ts.length ≤ k) : extent ts k =
    ((ts.getLast?.map fun t => t.full.2).getD 0 + (k - ts.length), (ts.getLast?.map fun t => t.full.2).getD 0 + (k - ts.length) + 1) := by
  simp [extent, List.getElem?_eq_none h]

theorem extent_forward {toks ts} (h : Trees toks ts) (k : Nat) : (extent ts k).1 < (extent ts k).2 := by
  by_cases hk : k < ts.length
  · rw [extent_some (List.getElem?_eq_getElem hk)]
    exact h.pos _ (List.getElem_mem hk)
  · rw [extent_none (by omega)]; simp

theorem extent_next {toks ts} (h : Trees toks ts) (k : Nat) : (extent ts (k + 1)).1 = (extent ts k).2 := by
  obtain ⟨e, he⟩ := h.tiles
  by_cases hk : k + 1 < ts.length
  · rw [extent_some (List.getElem?_eq_getElem hk), extent_some (List.getElem?_eq_getElem (by omega : k < ts.length))]
    exact tiles_next he (List.getElem?_eq_getElem _) (List.getElem?_eq_getElem _)
  · rw [extent_none (k := k + 1) (by omega)]
    by_cases hk' : k < ts.length
    · have : ts.getLast? = some ts[k] := by
        rw [List.getLast?_eq_getElem?]
        have : ts.length - 1 = k := by omega
        rw [this, List.getElem?_eq_getElem hk']
      rw [extent_some (List.getElem?_eq_getElem hk'), this]
      simp only [Option.map_some, Option.getD_some]
      omega
    · rw [extent_none (k := k) (by omega)]
      simp only
      omega

theorem extent_mono {toks ts} (h : Trees toks ts) : ∀ {j k : Nat}, j < k → (extent ts j).2 ≤ (extent ts k).1
  | j, k + 1, hjk => by
    rw [extent_next h]
    by_cases e : j = k
    · subst e; exact Nat.le_refl _
    · have := extent_mono h (j := j) (k := k) (by omega)
      have := extent_forward h k
      omega

/-- What is imported is of another unit. -/
def Elsewhere (me : Nat) (lookup : Lookup) : Prop := ∀ path u, lookup path = .ok u → ∀ e ∈ u, e.sym.unit ≠ me

theorem foreign_item {me lookup nd o} (h : Elsewhere me lookup) : ForeignImports me (toItemO lookup nd o) := by
  match o with
  | none => trivial
  | some (.value ..) => trivial
  | some (.type ..) => trivial
  | some (.import_ node n ex none) => trivial
  | some (.import_ node n ex (some p)) =>
    simp only [toItemO, toItem, toImport]
    cases hl : lookup ((p.drop 1).take (p.length - 2)) with
    | error e => trivial
    | ok u => exact h _ _ hl

theorem laid_of_trees {toks : List Tok} {ts : List Elem} (h : Trees toks ts) (hpos : ∀ t ∈ toks, 0 < t.text.length) (hno : NoTouch toks)
    {lookup : Lookup} {me : Nat} (hf : Elsewhere me lookup) (src : Text) : Laid (unitOf lookup me src ts) := by
  have name_of : ∀ {k i m}, (unitOf lookup me src ts).items[k]? = some i → m ∈ nodesItem i →
      ∃ t d, ts[k]? = some t ∧ d ∈ nameNodes t ∧ m = nodeNo (width ts) k (nodeId d) ∧ spanAt ts m = spanOf d := by
    intro k i m hk hm
    obtain ⟨t, h1, rfl⟩ := itemsFrom_get hk
    obtain ⟨d, h2, rfl⟩ := node_is_name hm
    rw [Nat.zero_add]
    exact ⟨t, d, h1, h2, rfl, spanAt_node h1 (h.ids t (List.mem_of_getElem? h1)) (List.mem_filter.1 h2).1⟩
  have leaf : ∀ {k : Nat} {t d}, ts[k]? = some t → d ∈ nameNodes t → (.token .ident, spanOf d) ∈ place 0 toks ∧ (extent ts k).1 ≤ (spanOf d).1 ∧
      (spanOf d).1 < (spanOf d).2 ∧ (spanOf d).2 ≤ (extent ts k).2 := by
    intro k t d hk hd
    have ht := List.mem_of_getElem? hk
    have h1 := h.leaves t ht _ (name_leaf (h.good t ht) hd)
    rw [extent_some hk]
    exact ⟨h1.1, h1.2.1, place_pos hpos h1.1, h1.2.2⟩
  refine ⟨extent_forward h, extent_next h, ?_, ?_, ?_, ?_⟩
  · intro k i hk m hm
    obtain ⟨t, d, h1, h2, -, h4⟩ := name_of hk hm
    have := leaf h1 h2
    show (extent ts k).1 ≤ (spanAt ts m).1 ∧ _
    rw [show (unitOf lookup me src ts).span m = spanOf d from h4, h4]
    exact this.2
  · refine List.nodup_iff_count.2 fun m => Nat.le_trans (count_items fun t ht => ⟨h.ids t ht, fun x hx => id_lt ht hx⟩) ?_
    split <;> omega
  · intro m hm m' hm' hne
    obtain ⟨i, hi, hm⟩ := List.mem_flatMap.1 hm
    obtain ⟨i', hi', hm'⟩ := List.mem_flatMap.1 hm'
    obtain ⟨k, hk⟩ := List.mem_iff_getElem?.1 hi
    obtain ⟨k', hk'⟩ := List.mem_iff_getElem?.1 hi'
    obtain ⟨t, d, h1, h2, h3, h4⟩ := name_of hk hm
    obtain ⟨t', d', h1', h2', h3', h4'⟩ := name_of hk' hm'
    have l := leaf h1 h2
    have l' := leaf h1' h2'
    rw [show (unitOf lookup me src ts).span m = spanOf d from h4, show (unitOf lookup me src ts).span m' = spanOf d' from h4']
    refine place_apart hpos hno l.1 l'.1 fun e => hne ?_
    rcases Nat.lt_trichotomy k k' with hlt | heq | hlt
    · have := extent_mono h hlt
      rw [e] at l
      omega
    · subst heq
      rw [h1] at h1'
      cases h1'
      have := name_span_inj (h.good t (List.mem_of_getElem? h1)) (h.spans t (List.mem_of_getElem? h1)) h2 h2' e
      rw [h3, h3', this]
    · have := extent_mono h hlt
      rw [e] at l
      omega
  · intro i hi
    obtain ⟨k, hk⟩ := List.mem_iff_getElem?.1 hi
    obtain ⟨t, -, rfl⟩ := itemsFrom_get hk
    exact foreign_item hf

/-- The trees of a text, whatever was asked before. -/
theorem unit_trees {p : Phases S D I} (hp : p.Lawful) (err : Text → Nat) (src : Text) (os : List Nat) :
    ∃ before items, p.requests (rules err) src os [] = some before ∧ p.compileUpTo (rules err) src src.length before = some items ∧
      Trees (lex (rules err) src) (items.map p.syn) := by
  have hpos : ∀ t ∈ lex (rules err) src, 0 < t.text.length := lex_pos _ _ _ (Nat.le_refl _)
  have h0 : Grown p (lex (rules err) src) ([] : List I) [] (lex (rules err) src) :=
    ⟨rfl, rfl, ⟨⟨0, rfl⟩, by simp, by simp, by simp, by simp, by simp⟩⟩
  obtain ⟨before, cs, left, h1, h2, h3⟩ := requests_inv hp (grown_step hpos) os (.nil p (rules err) src) h0
  obtain ⟨items, cs', left', g1, g2, g3⟩ := compileUpTo_inv hp (offset := src.length) (grown_step hpos) h2 h3
  exact ⟨before, items, h1, g1, g3.trees⟩

/-- **C54**.  What the editor queries assume about positions holds of every text: whatever the text, the analyses and the history of
requests, the unit made of the trees of its items has its names in order.  So the theorems about queries (C45, C46, C47) hold of every file. -/
theorem unit_laid {p : Phases S D I} (hp : p.Lawful) (err : Text → Nat) (src : Text) (os : List Nat) {lookup : Lookup} {me : Nat} (hf : Elsewhere me lookup) :
    ∃ before items, p.requests (rules err) src os [] = some before ∧ p.compileUpTo (rules err) src src.length before = some items ∧
      p.compiledLength items = src.length ∧ Laid (unitOf lookup me src (items.map p.syn)) := by
  have hpos : ∀ t ∈ lex (rules err) src, 0 < t.text.length := lex_pos _ _ _ (Nat.le_refl _)
  have h0 : Grown p (lex (rules err) src) ([] : List I) [] (lex (rules err) src) :=
    ⟨rfl, rfl, ⟨⟨0, rfl⟩, by simp, by simp, by simp, by simp, by simp⟩⟩
  obtain ⟨before, cs, left, h1, h2, h3⟩ := requests_inv hp (grown_step hpos) os (.nil p (rules err) src) h0
  obtain ⟨items, cs', left', g1, g2, g3⟩ := compileUpTo_inv hp (offset := src.length) (grown_step hpos) h2 h3
  refine ⟨before, items, h1, g1, ?_, laid_of_trees g3.trees hpos (lex_apart err _ src (Nat.le_refl _)) hf src⟩
  obtain ⟨items', cs'', left'', k1, k2, k3, -⟩ := compileUpTo_covers hp (offset := src.length) h2
  rw [g1] at k1
  cases k1
  have := g2.le
  omega

end

end Tic.Units
