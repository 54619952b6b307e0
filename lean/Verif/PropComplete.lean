import Verif.CompleteItem
import Verif.PropApi

/-!
# C47: completions
-/

namespace Tic.Api

open Tic.Resolve

/-! ## Specification -/

/-- With `x` typed at the node `p` of the item `i`, which takes the place of the `k`-th item, the compiler
records a reference at `p`. -/
def Src.refersAt (s : Src) (k : Nat) (i : Item) (p : Nat) (x : String) : Prop :=
  ∃ out, (resolveUnit s.me (s.items.take k ++ [renItem p x i]) [{}] 0)[k]? = some out ∧
    ∃ sym, (sym, p) ∈ out.refs

/-- a definition that gives a module the name `x` -/
def isModuleDef (x : String) (d : Def Sym) : Bool :=
  decide (d.vis ≠ .local) && d.hasName && decide (d.text = x) &&
  (match d.kind with
    | .module => true
    | _ => false)

/-- what the module called `x` exports: the latest import under that name before the `k`-th item -/
def Src.moduleNamed (s : Src) (k : Nat) (x : String) : Option (List (Export Sym)) :=
  ((allDefs (s.full.take k)).reverse.find? (isModuleDef x)).map (·.unit)

/-- The cursor is in the `k`-th item (at the boundary of two items it counts as being in the first), not at the very start of the text, and,
with the temporary identifier in place, on the name at the node `p` and on no other. -/
structure Cursor (s : Src) (i : Item) (span' : Nat → Span) (pos k p : Nat) (use : Use) : Prop where
  bound : k < s.items.length
  start : 0 < pos
  item : (s.ispan k).1 ≤ pos ∧ pos ≤ (s.ispan k).2 ∧ (k = 0 ∨ (s.ispan k).1 < pos)
  distinct : ((sitesItem i).map (·.1)).Nodup
  site : (p, use) ∈ sitesItem i
  only : ∀ m u, (m, u) ∈ sitesItem i → (((span' m).1 ≤ pos ∧ pos ≤ (span' m).2) ↔ m = p)

/-! ## Proof -/

theorem inside_iff' {sp : Span} {pos : Nat} : inside sp pos = true ↔ sp.1 ≤ pos ∧ pos ≤ sp.2 := by
  simp [inside]

/-- the scope the item is resolved in -/
def Src.scopeAt (s : Src) (k : Nat) : Scope :=
  (s.full.take k).foldl (fun sc o => Scope.addItem sc o.defs) ([{}] : Scope)

def Src.envAt (s : Src) (k : Nat) : Env :=
  Env.after (((s.full.take k).map (Out.map (erase s.me))).flatMap (·.defs)) []

theorem fold_agree {me : Nat} : ∀ (os : List (Out Sym)) (scope : Scope) (env : Env), Agree me scope env →
    Agree me (os.foldl (fun sc o => Scope.addItem sc o.defs) scope)
      (env.after ((os.map (Out.map (erase me))).flatMap (·.defs)))
  | [], _, _, h => h
  | o :: os, scope, env, h => by
    have := fold_agree os _ _ (addItem_agree o.defs h)
    simp only [List.foldl_cons, List.map_cons, List.flatMap_cons]
    simp only [Env.after, List.reverse_append, List.flatMap_append, List.append_assoc] at this ⊢
    exact this

theorem agree_at (s : Src) (k : Nat) : Agree s.me (s.scopeAt k) (s.envAt k) :=
  fold_agree _ _ _ (agree_empty s.me)

theorem addDef_ne {scope : Scope} (h : scope ≠ []) (d : Def Sym) : scope.addDef d ≠ [] := by
  obtain ⟨f, r, rfl⟩ := List.exists_cons_of_ne_nil h
  simp only [Scope.addDef]
  split
  · exact h
  · split
    · exact h
    · split <;> simp [Scope.insertValue, Scope.insertType, Scope.insertCtor, Scope.insertModule]

theorem addItem_ne : ∀ (ds : List (Def Sym)) {scope : Scope}, scope ≠ [] → scope.addItem ds ≠ []
  | [], _, h => h
  | d :: ds, _, h => addItem_ne ds (addDef_ne h d)

theorem fold_ne : ∀ (os : List (Out Sym)) {scope : Scope}, scope ≠ [] →
    os.foldl (fun sc o => Scope.addItem sc o.defs) scope ≠ []
  | [], _, h => h
  | o :: os, _, h => fold_ne os (addItem_ne o.defs h)

theorem scopeAt_ne (s : Src) (k : Nat) : s.scopeAt k ≠ [] := fold_ne _ (by simp)

/-- modules in the scope -/
theorem module_addDef {scope : Scope} (d : Def Sym) (x : String) :
    (scope.addDef d).lookupModule x =
      if isModuleDef x d then some d.unit else scope.lookupModule x := by
  obtain ⟨sym, kind, vis, node, text, hasName, unit⟩ := d
  have ho := fun y sc => lookup_insert_other text y sym unit sc
  by_cases h1 : vis = .local
  · simp [Scope.addDef, isModuleDef, h1]
  · cases hasName with
    | false => simp [Scope.addDef, isModuleDef, h1]
    | true =>
      cases kind with
      | value => simp only [Scope.addDef, isModuleDef]; have := ho x scope; simp_all
      | ctor =>
        have h2 := ho x scope
        have h3 := ho x (scope.insertCtor text sym)
        simp_all [Scope.addDef, isModuleDef]
      | type => simp only [Scope.addDef, isModuleDef]; have := ho x scope; simp_all
      | module =>
        simp [Scope.addDef, isModuleDef, h1, lookupModule_insertModule]

theorem module_addItem (x : String) : ∀ (ds : List (Def Sym)) (scope : Scope),
    (scope.addItem ds).lookupModule x =
      match ds.reverse.find? (isModuleDef x) with
      | some d => some d.unit
      | none => scope.lookupModule x
  | [], _ => rfl
  | d :: ds, scope => by
    have ih := module_addItem x ds (scope.addDef d)
    rw [show scope.addItem (d :: ds) = (scope.addDef d).addItem ds from rfl, ih, List.reverse_cons,
      List.find?_append, module_addDef]
    cases ds.reverse.find? (isModuleDef x) with
    | some d' => simp
    | none =>
      cases h : isModuleDef x d <;> simp [h]

theorem module_fold (x : String) : ∀ (os : List (Out Sym)) (scope : Scope),
    Scope.lookupModule x (os.foldl (fun sc o => Scope.addItem sc o.defs) scope) =
      match (os.flatMap (·.defs)).reverse.find? (isModuleDef x) with
      | some d => some d.unit
      | none => scope.lookupModule x
  | [], _ => rfl
  | o :: os, scope => by
    rw [List.foldl_cons, module_fold x os, List.flatMap_cons, List.reverse_append, List.find?_append,
      module_addItem]
    cases (os.flatMap (·.defs)).reverse.find? (isModuleDef x) <;> simp

theorem moduleNamed_eq (s : Src) (k : Nat) (x : String) :
    s.moduleNamed k x = (s.scopeAt k).lookupModule x := by
  unfold Src.moduleNamed Src.scopeAt allDefs
  rw [module_fold]
  cases ((s.full.take k).flatMap (·.defs)).reverse.find? (isModuleDef x) <;> simp [Scope.lookupModule, Resolve.get]

theorem refAt_map {me p : Nat} {o : Out Sym} : RefAt p (o.map (erase me)) ↔ RefAt p o := by
  simp only [RefAt, Out.map, List.mem_map]
  constructor
  · rintro ⟨t, ⟨s, k⟩, h, e⟩
    simp only [Prod.mk.injEq] at e
    exact ⟨s, e.2 ▸ h⟩
  · rintro ⟨s, h⟩
    exact ⟨_, _, h, rfl⟩

theorem refersAt_iff {s : Src} {k : Nat} (hk : k < s.items.length) (i : Item) (p : Nat) (x : String) :
    s.refersAt k i p x ↔ RefAt p (specItem s.me (s.envAt k) (renItem p x i)) := by
  have hlen : (s.items.take k).length = k := by rw [List.length_take]; omega
  have hget : (s.items.take k ++ [renItem p x i])[k]? = some (renItem p x i) := by
    rw [List.getElem?_append_right (by omega), hlen]; simp
  have h1 := specUnit_get (me := s.me) _ [] k _ hget
  have h2 := resolve_meets_spec s.me (s.items.take k ++ [renItem p x i])
  have h3 : (specUnit s.me (s.items.take k ++ [renItem p x i]) []).take k =
      (s.full.take k).map (Out.map (erase s.me)) := by
    rw [← h2, ← List.map_take, ← resolveUnit_take, List.take_left' hlen, resolveUnit_take]
    rfl
  rw [h3] at h1
  rw [← h2, List.getElem?_map] at h1
  unfold Src.refersAt
  cases ho : (resolveUnit s.me (s.items.take k ++ [renItem p x i]) [{}] 0)[k]? with
  | none => rw [ho] at h1; exact nomatch h1
  | some out =>
    rw [ho] at h1
    have h4 : out.map (erase s.me) = specItem s.me (s.envAt k) (renItem p x i) := by
      exact Option.some.inj h1
    rw [← h4, refAt_map]
    constructor
    · rintro ⟨o, e, h⟩
      cases e
      exact h
    · exact fun h => ⟨out, rfl, h⟩

/-! ### The item at the cursor -/

theorem itemAt_spec {s : Src} (hl : Laid s) {pos k n : Nat} (hkn : k < n)
    (hi : (s.ispan k).1 ≤ pos ∧ pos ≤ (s.ispan k).2 ∧ (k = 0 ∨ (s.ispan k).1 < pos)) :
    s.itemAt pos n = some k := by
  unfold Src.itemAt
  rw [List.find?_range_eq_some]
  refine ⟨inside_iff'.2 ⟨hi.1, hi.2.1⟩, List.mem_range.2 hkn, fun j hj => ?_⟩
  have := hl.mono j k hj
  have : ¬ (pos ≤ (s.ispan j).2) := by omega
  simp [inside, this]

theorem compiled_upto {s : Src} (hl : Laid s) {pos k n : Nat} (hn : n ≤ s.items.length)
    (hk : k < s.items.length)
    (hi : (s.ispan k).1 ≤ pos ∧ pos ≤ (s.ispan k).2 ∧ (k = 0 ∨ (s.ispan k).1 < pos)) (h0 : 0 < pos) :
    k < s.compileUpTo pos n := by
  obtain ⟨h1, h2, h3⟩ := Src.compileUpTo_spec (s := s) pos hn
  generalize s.compileUpTo pos n = m at h1 h2 h3
  rcases h3 with h3 | h3
  · rcases Nat.lt_or_ge k m with h | h
    · exact h
    · exfalso
      cases m with
      | zero => simp only [Src.compiledLength] at h3; omega
      | succ m =>
        simp only [Src.compiledLength] at h3
        have := hl.mono m k (by omega)
        omega
  · omega

theorem pair_unique {l : List (Nat × Use)} (h : (l.map (·.1)).Nodup) {p : Nat} {a b : Use}
    (ha : (p, a) ∈ l) (hb : (p, b) ∈ l) : a = b := by
  induction l with
  | nil => exact nomatch ha
  | cons c l ih =>
    rw [List.map_cons, List.nodup_cons] at h
    rcases List.mem_cons.1 ha with ha' | ha' <;> rcases List.mem_cons.1 hb with hb' | hb'
    · rw [← ha'] at hb'; cases hb'; rfl
    · subst ha'; exact absurd (List.mem_map_of_mem (f := fun c : Nat × Use => c.1) hb') h.1
    · subst hb'; exact absurd (List.mem_map_of_mem (f := fun c : Nat × Use => c.1) ha') h.1
    · exact ih h.2 ha' hb'

theorem completions_eq {s : Src} (hl : Laid s) {reparsed : Nat → Item} {span' : Nat → Span}
    {n pos k : Nat} (hn : n ≤ s.items.length) (hk : k < s.items.length) (h0 : 0 < pos)
    (hi : (s.ispan k).1 ≤ pos ∧ pos ≤ (s.ispan k).2 ∧ (k = 0 ∨ (s.ispan k).1 < pos)) :
    (s.completionsAt reparsed span' n pos).1 =
      (((namesItem s.me (s.scopeAt k) {} (reparsed k)).filter
        fun ev => inside (span' ev.node) pos).getLast?).map offered := by
  have hc := compiled_upto hl hn hk hi h0
  unfold Src.completionsAt
  simp only [itemAt_spec hl hc hi, s.outs_take, List.take_take, Nat.min_eq_left (Nat.le_of_lt hc)]
  rfl

/-- the callback at the cursor -/
theorem cursor_event {s : Src} (hl : Laid s) {reparsed : Nat → Item} {span' : Nat → Span}
    {n pos k p : Nat} {use : Use} (hn : n ≤ s.items.length)
    (hc : Cursor s (reparsed k) span' pos k p use) :
    ∃ ev, (s.completionsAt reparsed span' n pos).1 = some (offered ev) ∧ ev.node = p ∧
      Fits (s.scopeAt k) ev use (fun x => specItem s.me (s.envAt k) (renItem p x (reparsed k))) := by
  have hf := fit_item (agree_at s k) {} (reparsed k) hc.distinct
  have hmem : ∀ ev, ev ∈ (namesItem s.me (s.scopeAt k) {} (reparsed k)).filter
      (fun ev => inside (span' ev.node) pos) →
      ev.node = p ∧ ev ∈ namesItem s.me (s.scopeAt k) {} (reparsed k) := by
    intro ev hev
    obtain ⟨h1, h2⟩ := List.mem_filter.1 hev
    obtain ⟨u, hu, -⟩ := hf.fit ev h1
    exact ⟨(hc.only _ _ hu).1 (inside_iff'.1 h2), h1⟩
  have hex : ∃ ev ∈ namesItem s.me (s.scopeAt k) {} (reparsed k), ev.node = p := by
    have : p ∈ (namesItem s.me (s.scopeAt k) {} (reparsed k)).map (·.node) := by
      rw [hf.nodes]
      exact List.mem_map.2 ⟨_, hc.site, rfl⟩
    exact List.mem_map.1 this
  obtain ⟨ev0, hev0, e0⟩ := hex
  have hin : ev0 ∈ (namesItem s.me (s.scopeAt k) {} (reparsed k)).filter
      (fun ev => inside (span' ev.node) pos) :=
    List.mem_filter.2 ⟨hev0, inside_iff'.2 ((hc.only _ _ (e0 ▸ hc.site)).2 e0)⟩
  rw [completions_eq hl hn hc.bound hc.start hc.item]
  cases hg : ((namesItem s.me (s.scopeAt k) {} (reparsed k)).filter
      (fun ev => inside (span' ev.node) pos)).getLast? with
  | none =>
    rw [List.getLast?_eq_none_iff] at hg
    rw [hg] at hin
    exact nomatch hin
  | some ev =>
    obtain ⟨h1, h2⟩ := hmem ev (List.mem_of_getLast? hg)
    obtain ⟨u, hu, hfit⟩ := hf.fit ev h2
    have : u = use := by
      have hd := hc.distinct
      rw [h1] at hu
      exact pair_unique hd hu hc.site
    subst this
    refine ⟨ev, rfl, h1, ?_⟩
    subst h1
    exact hfit

/-! ### What is offered -/

theorem frames_value {x : String} : ∀ scope : Scope, (∃ f ∈ scope, x ∈ keys f.values) ↔ (scope.lookupValue x).isSome
  | [] => by simp [Scope.lookupValue]
  | f :: r => by
    have ih := frames_value (x := x) r
    simp only [List.mem_cons, exists_eq_or_imp, ih, Scope.lookupValue, mem_keys]
    simp only [mem_keys] at ih
    cases Resolve.get x f.values <;> simp [ih]

theorem frames_type {x : String} : ∀ scope : Scope, (∃ f ∈ scope, x ∈ keys f.types) ↔ (scope.lookupType x).isSome
  | [] => by simp [Scope.lookupType]
  | f :: r => by
    have ih := frames_type (x := x) r
    simp only [List.mem_cons, exists_eq_or_imp, ih, Scope.lookupType, mem_keys]
    simp only [mem_keys] at ih
    cases Resolve.get x f.types <;> simp [ih]

theorem frames_ctor {x : String} : ∀ scope : Scope, (∃ f ∈ scope, x ∈ keys f.ctors) ↔ (scope.lookupCtor x).isSome
  | [] => by simp [Scope.lookupCtor]
  | f :: r => by
    have ih := frames_ctor (x := x) r
    simp only [List.mem_cons, exists_eq_or_imp, ih, Scope.lookupCtor, mem_keys]
    simp only [mem_keys] at ih
    cases Resolve.get x f.ctors <;> simp [ih]

theorem frames_module {x : String} : ∀ scope : Scope, (∃ f ∈ scope, x ∈ keys f.modules) ↔ (scope.lookupModule x).isSome
  | [] => by simp [Scope.lookupModule]
  | f :: r => by
    have ih := frames_module (x := x) r
    simp only [List.mem_cons, exists_eq_or_imp, ih, Scope.lookupModule, mem_keys]
    simp only [mem_keys] at ih
    cases Resolve.get x f.modules <;> simp [ih]

theorem offered_none {ev : Ev} (h : ev.space = .none) {x : String} :
    x ∈ offered ev ↔ (ev.scope.lookupModule x).isSome ∨ (ev.usage ≠ .module ∧ ev.scope.has ev.usage x) := by
  rw [mem_offered, ← frames_module, h]
  simp only [frameNames, List.mem_append, and_or_left, exists_or]
  refine or_congr_right ?_
  cases ev.usage with
  | value => simp [Scope.has, frames_value]
  | type => simp [Scope.has, frames_type]
  | pattern => simp [Scope.has, frames_ctor]
  | module => simp

theorem offered_module {ev : Ev} {ex : List (Export Sym)} (h : ev.space = .module ex) (hne : ev.scope ≠ [])
    {x : String} : x ∈ offered ev ↔ x ∈ exportNames ex ev.usage := by
  rw [mem_offered, h]
  obtain ⟨f, r, e⟩ := List.exists_cons_of_ne_nil hne
  constructor
  · rintro ⟨_, -, h⟩; exact h
  · intro h; exact ⟨f, by rw [e]; simp, h⟩

theorem offered_unresolved {ev : Ev} (h : ev.space = .unresolved) : offered ev = [] := by
  apply List.eq_nil_iff_forall_not_mem.2
  intro x hx
  rw [mem_offered, h] at hx
  obtain ⟨_, -, h⟩ := hx
  exact nomatch h

/-! ### Exports -/

theorem mem_live {S : Type} {e : Export S} : ∀ {ex : List (Export S)}, e ∈ live ex ↔ getExport e.ns e.text ex = some e
  | [] => by simp [live, getExport]
  | a :: r => by
    have ih := mem_live (e := e) (ex := r)
    simp only [live, List.mem_cons, List.mem_filter, getExport]
    by_cases hk : a.ns = e.ns ∧ a.text = e.text
    · simp only [hk, and_self, if_true, Option.some.injEq]
      simp [eq_comm, hk]
    · simp only [hk, if_false, ih]
      constructor
      · rintro (rfl | ⟨h, -⟩)
        · exact absurd ⟨rfl, rfl⟩ hk
        · exact h
      · intro h
        refine .inr ⟨h, ?_⟩
        simp only [Bool.not_eq_true', Bool.and_eq_false_iff, decide_eq_false_iff_not]
        by_cases h1 : e.ns = a.ns
        · exact .inr fun h2 => hk ⟨h1.symm, h2.symm⟩
        · exact .inl h1

/-- what `collect_exports` guarantees: an export is in a namespace of its kind, and constructors are in both -/
structure Collected {S : Type} (ex : List (Export S)) : Prop where
  kinds : ∀ e ∈ ex, e.ns ∈ e.kind.namespaces
  both : ∀ e ∈ ex, kindUsage e.kind = .pattern → ∃ e' ∈ ex, e'.ns = .pattern ∧ e'.text = e.text

theorem exports_collected {S : Type} (ds : List (Def S)) : Collected (collectExports ds) := by
  unfold collectExports
  suffices ∀ (ex : List (Export S)), Collected ex → Collected (ds.foldl (fun ex d =>
    if d.vis = .export then
      d.kind.namespaces.foldl (fun ex ns => ⟨ns, d.text, d.sym, d.kind⟩ :: ex) ex
    else ex) ex) from this [] ⟨nofun, nofun⟩
  induction ds with
  | nil => exact fun ex h => h
  | cons d ds ih =>
    intro ex h
    rw [List.foldl_cons]
    apply ih
    split
    · cases hk : d.kind with
      | value =>
        simp only [Kind.namespaces, List.foldl_cons, List.foldl_nil]
        constructor
        · intro e he
          rcases List.mem_cons.1 he with rfl | he
          · simp [Kind.namespaces]
          · exact h.kinds e he
        · intro e he hp
          rcases List.mem_cons.1 he with rfl | he
          · exact nomatch hp
          · obtain ⟨e', h1, h2⟩ := h.both e he hp
            exact ⟨e', List.mem_cons_of_mem _ h1, h2⟩
      | ctor =>
        simp only [Kind.namespaces, List.foldl_cons, List.foldl_nil]
        constructor
        · intro e he
          rcases List.mem_cons.1 he with rfl | he
          · simp [Kind.namespaces]
          rcases List.mem_cons.1 he with rfl | he
          · simp [Kind.namespaces]
          · exact h.kinds e he
        · intro e he hp
          rcases List.mem_cons.1 he with rfl | he
          · exact ⟨_, List.mem_cons_of_mem _ (List.mem_cons_self ..), rfl, rfl⟩
          rcases List.mem_cons.1 he with rfl | he
          · exact ⟨_, List.mem_cons_of_mem _ (List.mem_cons_self ..), rfl, rfl⟩
          · obtain ⟨e', h1, h2⟩ := h.both e he hp
            exact ⟨e', List.mem_cons_of_mem _ (List.mem_cons_of_mem _ h1), h2⟩
      | type =>
        simp only [Kind.namespaces, List.foldl_cons, List.foldl_nil]
        constructor
        · intro e he
          rcases List.mem_cons.1 he with rfl | he
          · simp [Kind.namespaces]
          · exact h.kinds e he
        · intro e he hp
          rcases List.mem_cons.1 he with rfl | he
          · exact nomatch hp
          · obtain ⟨e', h1, h2⟩ := h.both e he hp
            exact ⟨e', List.mem_cons_of_mem _ h1, h2⟩
      | module =>
        simp only [Kind.namespaces, List.foldl_cons, List.foldl_nil]
        constructor
        · intro e he
          rcases List.mem_cons.1 he with rfl | he
          · simp [Kind.namespaces]
          · exact h.kinds e he
        · intro e he hp
          rcases List.mem_cons.1 he with rfl | he
          · exact nomatch hp
          · obtain ⟨e', h1, h2⟩ := h.both e he hp
            exact ⟨e', List.mem_cons_of_mem _ h1, h2⟩
    · exact h

theorem getExport_some {S : Type} {ns : NS} {x : String} {e : Export S} : ∀ {ex : List (Export S)},
    getExport ns x ex = some e → e ∈ ex ∧ e.ns = ns ∧ e.text = x
  | [], h => nomatch h
  | a :: r, h => by
    simp only [getExport] at h
    split at h
    · next hk => cases h; exact ⟨List.mem_cons_self .., hk⟩
    · obtain ⟨h1, h2⟩ := getExport_some h
      exact ⟨List.mem_cons_of_mem _ h1, h2⟩

theorem getExport_of_mem {S : Type} {e : Export S} : ∀ {ex : List (Export S)}, e ∈ ex →
    (getExport e.ns e.text ex).isSome
  | a :: r, h => by
    simp only [getExport]
    split
    · rfl
    · next hk =>
      rcases List.mem_cons.1 h with rfl | h
      · exact absurd ⟨rfl, rfl⟩ hk
      · exact getExport_of_mem h

theorem exportNames_pattern {S : Type} {ex : List (Export S)} (h : Collected ex) (x : String) :
    x ∈ exportNames ex .pattern ↔ (getExport .pattern x ex).isSome := by
  simp only [exportNames, List.mem_map, List.mem_filter, decide_eq_true_eq]
  constructor
  · rintro ⟨e, ⟨h1, h2⟩, rfl⟩
    obtain ⟨e', h3, h4, h5⟩ := h.both e (getExport_some (mem_live.1 h1)).1 h2
    rw [← h4, ← h5]
    exact getExport_of_mem h3
  · intro hs
    obtain ⟨e, he⟩ := Option.isSome_iff_exists.1 hs
    obtain ⟨h1, h2, h3⟩ := getExport_some he
    refine ⟨e, ⟨mem_live.2 (by rw [h2, h3]; exact he), ?_⟩, h3⟩
    have := h.kinds e h1
    rw [h2] at this
    cases hk : e.kind <;> rw [hk] at this <;> simp_all [Kind.namespaces, kindUsage]

/-- whether an exported definition is a constructor -/
def Export.isCtor {S : Type} (e : Export S) : Prop :=
  match e.kind with
  | .ctor .. => True
  | _ => False

theorem exportNames_value {S : Type} {ex : List (Export S)} (h : Collected ex) (x : String) :
    x ∈ exportNames ex .value ↔ ∃ e, getExport .value x ex = some e ∧ ¬ Export.isCtor e := by
  simp only [exportNames, List.mem_map, List.mem_filter, decide_eq_true_eq]
  constructor
  · rintro ⟨e, ⟨h1, h2⟩, rfl⟩
    have hl := mem_live.1 h1
    have hk := h.kinds e (getExport_some hl).1
    have hns : e.ns = .value := by
      cases hk' : e.kind <;> rw [hk'] at hk h2 <;> simp_all [Kind.namespaces, kindUsage]
    refine ⟨e, hns ▸ hl, ?_⟩
    unfold Export.isCtor
    cases hk' : e.kind <;> rw [hk'] at h2 <;> simp_all [kindUsage]
  · rintro ⟨e, he, hc⟩
    obtain ⟨h1, h2, h3⟩ := getExport_some he
    refine ⟨e, ⟨mem_live.2 (by rw [h2, h3]; exact he), ?_⟩, h3⟩
    have := h.kinds e h1
    rw [h2] at this
    unfold Export.isCtor at hc
    cases hk : e.kind <;> rw [hk] at this hc <;> simp_all [Kind.namespaces, kindUsage]

/-! ## C47 -/

variable {s : Src} {reparsed : Nat → Item} {span' : Nat → Span} {n pos k p : Nat}

/-- **Completing a plain name** offers exactly the names that would resolve if they were typed there, and the
modules that may be named there, in order and without duplicates, however much was compiled before. -/
theorem complete_plain (hl : Laid s) (hn : n ≤ s.items.length) {ns : NS}
    (hc : Cursor s (reparsed k) span' pos k p (.plain ns)) :
    ∃ L, (s.completionsAt reparsed span' n pos).1 = some L ∧ L.Pairwise (· < ·) ∧
      ∀ x, x ∈ L ↔ s.refersAt k (reparsed k) p x ∨ (s.moduleNamed k x).isSome := by
  obtain ⟨ev, h1, h2, h3⟩ := cursor_event hl hn hc
  obtain ⟨k1, k2, k3, k4⟩ := h3.kind
  refine ⟨_, h1, offered_sorted ev, fun x => ?_⟩
  rw [offered_none k3, refersAt_iff hc.bound, moduleNamed_eq, h3.mods.mods, k2, ← k4 x, h2, or_comm]
  simp [k1]

/-- **Completing the name before a dot** offers exactly the modules imported by name before this item. -/
theorem complete_moduleName (hl : Laid s) (hn : n ≤ s.items.length)
    (hc : Cursor s (reparsed k) span' pos k p .moduleName) :
    ∃ L, (s.completionsAt reparsed span' n pos).1 = some L ∧ L.Pairwise (· < ·) ∧
      ∀ x, x ∈ L ↔ (s.moduleNamed k x).isSome := by
  obtain ⟨ev, h1, h2, h3⟩ := cursor_event hl hn hc
  obtain ⟨k1, k2⟩ := h3.kind
  refine ⟨_, h1, offered_sorted ev, fun x => ?_⟩
  rw [offered_none k2, moduleNamed_eq, h3.mods.mods, k1]
  simp

/-- After `m.` where `m` is not a module, nothing is offered. -/
theorem complete_unknown_module (hl : Laid s) (hn : n ≤ s.items.length) {ns : NS} {m : String}
    (hc : Cursor s (reparsed k) span' pos k p (.inModule m ns)) (hm : s.moduleNamed k m = none) :
    (s.completionsAt reparsed span' n pos).1 = some [] := by
  obtain ⟨ev, h1, h2, h3⟩ := cursor_event hl hn hc
  obtain ⟨k1, k2, k3⟩ := h3.kind
  rw [moduleNamed_eq] at hm
  rw [hm] at k3
  rw [h1, offered_unresolved k3.1]

/-- **Completing a constructor in a pattern after `m.`** offers exactly the names that would resolve. -/
theorem complete_pattern_in_module (hl : Laid s) (hn : n ≤ s.items.length) {m : String}
    (hc : Cursor s (reparsed k) span' pos k p (.inModule m .pattern)) {ds : List (Def Sym)}
    (hm : s.moduleNamed k m = some (collectExports ds)) :
    ∃ L, (s.completionsAt reparsed span' n pos).1 = some L ∧ L.Pairwise (· < ·) ∧
      ∀ x, x ∈ L ↔ s.refersAt k (reparsed k) p x := by
  obtain ⟨ev, h1, h2, h3⟩ := cursor_event hl hn hc
  obtain ⟨k1, k2, k3⟩ := h3.kind
  rw [moduleNamed_eq] at hm
  rw [hm] at k3
  refine ⟨_, h1, offered_sorted ev, fun x => ?_⟩
  rw [offered_module k3.1 (h3.mods.ne (scopeAt_ne s k)), k2, if_neg (by decide), exportNames_pattern (exports_collected ds),
    ← k3.2 x, h2, refersAt_iff hc.bound]

/-- **Completing a value after `m.`** offers exactly the names that would resolve and are not
constructors of the module; constructors are never offered there, although they would resolve. -/
theorem complete_value_in_module (hl : Laid s) (hn : n ≤ s.items.length) {m : String}
    (hc : Cursor s (reparsed k) span' pos k p (.inModule m .value)) {ds : List (Def Sym)}
    (hm : s.moduleNamed k m = some (collectExports ds)) :
    ∃ L, (s.completionsAt reparsed span' n pos).1 = some L ∧ L.Pairwise (· < ·) ∧
      ∀ x, x ∈ L ↔ s.refersAt k (reparsed k) p x ∧
        ¬ ∃ e, getExport .value x (collectExports ds) = some e ∧ Export.isCtor e := by
  obtain ⟨ev, h1, h2, h3⟩ := cursor_event hl hn hc
  obtain ⟨k1, k2, k3⟩ := h3.kind
  rw [moduleNamed_eq] at hm
  rw [hm] at k3
  refine ⟨_, h1, offered_sorted ev, fun x => ?_⟩
  rw [offered_module k3.1 (h3.mods.ne (scopeAt_ne s k)), k2, if_neg (by decide), exportNames_value (exports_collected ds),
    refersAt_iff hc.bound]
  have k4 := k3.2 x
  rw [h2] at k4
  rw [k4]
  constructor
  · rintro ⟨e, he, hne⟩
    refine ⟨by rw [he]; rfl, ?_⟩
    rintro ⟨e', he', hc⟩
    rw [he] at he'
    cases he'
    exact hne hc
  · rintro ⟨h, hne⟩
    obtain ⟨e, he⟩ := Option.isSome_iff_exists.1 h
    exact ⟨e, he, fun hc => hne ⟨e, he, hc⟩⟩

/-- Completing a type after `m.` offers the values of the module, whatever types it has (finding 41). -/
theorem complete_type_in_module (hl : Laid s) (hn : n ≤ s.items.length) {m : String}
    (hc : Cursor s (reparsed k) span' pos k p (.inModule m .type)) {ds : List (Def Sym)}
    (hm : s.moduleNamed k m = some (collectExports ds)) :
    ∃ L, (s.completionsAt reparsed span' n pos).1 = some L ∧ L.Pairwise (· < ·) ∧
      ∀ x, x ∈ L ↔ ∃ e, getExport .value x (collectExports ds) = some e ∧ ¬ Export.isCtor e := by
  obtain ⟨ev, h1, h2, h3⟩ := cursor_event hl hn hc
  obtain ⟨k1, k2, k3⟩ := h3.kind
  rw [moduleNamed_eq] at hm
  rw [hm] at k3
  refine ⟨_, h1, offered_sorted ev, fun x => ?_⟩
  rw [offered_module k3.1 (h3.mods.ne (scopeAt_ne s k)), k2, if_pos rfl, exportNames_value (exports_collected ds)]

/-- **Nothing is offered where no name is used**: on a binder, a keyword, a literal. -/
theorem complete_nowhere (hl : Laid s) (hn : n ≤ s.items.length) (hk : k < s.items.length) (h0 : 0 < pos)
    (hi : (s.ispan k).1 ≤ pos ∧ pos ≤ (s.ispan k).2 ∧ (k = 0 ∨ (s.ispan k).1 < pos))
    (hd : ((sitesItem (reparsed k)).map (·.1)).Nodup)
    (ho : ∀ m u, (m, u) ∈ sitesItem (reparsed k) → ¬ ((span' m).1 ≤ pos ∧ pos ≤ (span' m).2)) :
    (s.completionsAt reparsed span' n pos).1 = none := by
  rw [completions_eq hl hn hk h0 hi]
  have hf := fit_item (agree_at s k) {} (reparsed k) hd
  have : (namesItem s.me (s.scopeAt k) {} (reparsed k)).filter (fun ev => inside (span' ev.node) pos) = [] := by
    rw [List.filter_eq_nil_iff]
    intro ev hev hin
    obtain ⟨u, hu, -⟩ := hf.fit ev hev
    exact ho _ _ hu (inside_iff'.1 hin)
  rw [this]
  rfl

/-! ## A concrete unit

```
import m from "l";
export type t = C;            -- in "l", with v = 1
a = 1;
b = \y -> m.|                 -- or  b = \y -> |  or  b : m.| = 1  or  b = match a with m.| -> 1 end
```
-/

/-- the library: `export type t = C; export v = 1;` -/
def exLib : List (Def Sym) :=
  [⟨⟨7, 1, 2⟩, .ctor ⟨7, 0, 1⟩ [] [] (.named ⟨7, 0, 1⟩ .nil), .export, 2, "C", true, []⟩,
   ⟨⟨7, 0, 1⟩, .type 0 false (some [⟨7, 1, 2⟩]), .export, 1, "t", true, []⟩,
   ⟨⟨7, 2, 3⟩, .value .int [], .export, 3, "v", true, []⟩]

/-- the unit, its last item as it was before the user typed -/
def exComp : Src where
  me := 0
  items := [.importI 0 (.ok (collectExports exLib)) (some ⟨"m", 1⟩) [],
    .valueI false (some ⟨"a", 2⟩) none .literal,
    .valueI false (some ⟨"b", 3⟩) none (.lambda (some ⟨"y", 4⟩) .missing)]
  ispan k := (10 * k, 10 * k + 10)
  span m := if m = 0 then (0, 10) else if m = 1 then (3, 5) else if m = 2 then (13, 14) else
    if m = 3 then (21, 22) else (24, 25)

theorem exComp_laid : Laid exComp where
  forward k := by simp [exComp]
  next k := by simp [exComp]; omega
  within k i hk m hm := by
    match k with
    | 0 => cases hk; revert m; decide
    | 1 => cases hk; revert m; decide
    | 2 => cases hk; revert m; decide
    | k + 3 => exact nomatch hk
  distinct := by decide
  apart := by decide
  foreign i hi := by
    simp only [exComp, List.mem_cons, List.not_mem_nil, or_false] at hi
    rcases hi with rfl | rfl | rfl
    · intro u hu
      revert u
      decide
    · trivial
    · trivial

def hack : String := "ticc_autocomplete_hack"

/-- the spans of the nodes in the item as parsed again: the cursor is at 27 -/
def exSpan' (m : Nat) : Span := if m = 4 then (24, 25) else if m = 5 then (25, 26) else (27, 49)

/-- `b = \y -> hack` -/
def exPlain (_ : Nat) : Item := .valueI false (some ⟨"b", 3⟩) none (.lambda (some ⟨"y", 4⟩) (.name (some ⟨hack, 6⟩)))

/-- `b = \y -> m.hack` -/
def exValue (_ : Nat) : Item :=
  .valueI false (some ⟨"b", 3⟩) none (.lambda (some ⟨"y", 4⟩) (.nsName (some ⟨"m", 5⟩) (some ⟨hack, 6⟩)))

/-- `b : m.hack = 1` -/
def exTypeItem (_ : Nat) : Item := .valueI false (some ⟨"b", 3⟩) (some (.named (some ⟨"m", 5⟩) (some ⟨hack, 6⟩) .nil)) .literal

theorem exPlain_cursor : Cursor exComp (exPlain 2) exSpan' 27 2 6 (.plain .value) where
  bound := by decide
  start := by decide
  item := by decide
  distinct := by decide
  site := by decide
  only m u h := by
    simp [exPlain, sitesItem, sitesAnn, sitesExpr, siteName] at h
    simp [h.1, exSpan']

theorem exValue_cursor : Cursor exComp (exValue 2) exSpan' 27 2 6 (.inModule "m" .value) where
  bound := by decide
  start := by decide
  item := by decide
  distinct := by decide
  site := by decide
  only m u h := by
    simp [exValue, sitesItem, sitesAnn, sitesExpr, siteName] at h
    rcases h with h | h <;> simp [h.1, exSpan']

theorem exType_cursor : Cursor exComp (exTypeItem 2) exSpan' 27 2 6 (.inModule "m" .type) where
  bound := by decide
  start := by decide
  item := by decide
  distinct := by decide
  site := by decide
  only m u h := by
    simp [exTypeItem, sitesItem, sitesAnn, sitesTy, sitesTys, sitesExpr, siteName] at h
    rcases h with h | h <;> simp [h.1, exSpan']

theorem exComp_module : exComp.moduleNamed 2 "m" = some (collectExports exLib) := rfl

/-- plain: the variable `y`, the earlier `a` and the module `m` are offered, and `b` itself is not -/
example : ∃ L, (exComp.completionsAt exPlain exSpan' 0 27).1 = some L ∧ "y" ∈ L ∧ "a" ∈ L ∧ "m" ∈ L ∧
    "b" ∉ L := by
  obtain ⟨L, h1, -, h2⟩ := complete_plain exComp_laid (n := 0) (by decide) exPlain_cursor
  refine ⟨L, h1, (h2 _).2 (.inl ?_), (h2 _).2 (.inl ?_), (h2 _).2 (.inr rfl), fun h => ?_⟩
  · exact ⟨_, rfl, ⟨0, 3, 4⟩, by decide⟩
  · exact ⟨_, rfl, ⟨0, 1, 2⟩, by decide⟩
  · rcases (h2 _).1 h with ⟨out, ho, sym, hs⟩ | h
    · cases ho; exact nomatch hs
    · exact nomatch h

/-- **Finding 41a**: `m.C` would resolve, and is not offered. -/
theorem constructor_not_offered : exComp.refersAt 2 (exValue 2) 6 "C" ∧
    ∃ L, (exComp.completionsAt exValue exSpan' 0 27).1 = some L ∧ "C" ∉ L ∧ "v" ∈ L := by
  obtain ⟨L, h1, -, h2⟩ := complete_value_in_module exComp_laid (n := 0) (by decide) exValue_cursor exComp_module
  refine ⟨⟨_, rfl, ⟨7, 1, 2⟩, by decide⟩, L, h1, fun h => ?_, (h2 _).2 ⟨⟨_, rfl, ⟨7, 2, 3⟩, by decide⟩, ?_⟩⟩
  · exact ((h2 _).1 h).2 ⟨_, rfl, trivial⟩
  · rintro ⟨e, he, hc⟩
    cases he
    exact hc

/-- **Finding 41b**: in a type after `m.`, the type `t` is not offered although it would resolve, and the value
`v` is although it would not. -/
theorem type_not_offered : exComp.refersAt 2 (exTypeItem 2) 6 "t" ∧ ¬ exComp.refersAt 2 (exTypeItem 2) 6 "v" ∧
    ∃ L, (exComp.completionsAt exTypeItem exSpan' 0 27).1 = some L ∧ "t" ∉ L ∧ "v" ∈ L := by
  obtain ⟨L, h1, -, h2⟩ := complete_type_in_module exComp_laid (n := 0) (by decide) exType_cursor exComp_module
  refine ⟨⟨_, rfl, ⟨7, 0, 1⟩, by decide⟩, ?_, L, h1, fun h => ?_, (h2 _).2 ⟨_, rfl, fun h => h⟩⟩
  · rintro ⟨out, ho, sym, hs⟩
    cases ho
    exact nomatch hs
  · obtain ⟨e, he, -⟩ := (h2 _).1 h
    exact nomatch he

end Tic.Api
