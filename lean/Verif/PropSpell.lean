/-
C55: what is found for a name is spelled like the name.
-/
import Verif.SpellNames
import Verif.PropUnit
import Verif.PropApi

namespace Tic.Spell

open Tic.Parser
open Tic.Units
open Tic.Lower (Source Text item nameOf tokenSpans)
open Tic.Lexer (rules)
open Tic.Resolve
open Tic.Api (Src flat findDef inside)
open Tic.Hover (descendants nodeId children)

/-- The part of a text in a span. -/
def textAt (src : Text) (sp : Nat × Nat) : Text := (src.drop sp.1).take (sp.2 - sp.1)

theorem str_inj {a b : Text} (h : str a = str b) : a = b := by
  have h1 : a.map (fun b => Char.ofNat b.toNat) = b.map fun b => Char.ofNat b.toNat := by simpa [str] using congrArg String.toList h
  have inj : ∀ x y : UInt8, Char.ofNat x.toNat = Char.ofNat y.toNat → x = y := by
    intro x y e
    have hx := x.toNat_lt
    have hy := y.toNat_lt
    have key : ∀ n, n < 256 → (Char.ofNat n).toNat = n := by decide +kernel
    have := congrArg Char.toNat e
    rw [key _ (by omega), key _ (by omega)] at this
    exact UInt8.toNat_inj.1 this
  clear h
  induction a generalizing b with
  | nil => cases b with
    | nil => rfl
    | cons => simp at h1
  | cons x a ih => cases b with
    | nil => simp at h1
    | cons y b =>
      simp only [List.map_cons, List.cons.injEq] at h1
      rw [inj x y h1.1, ih h1.2]

/-- Imports give a symbol under one name only. -/
def Named (lookup : Lookup) : Prop := ∀ p p' u u', lookup p = .ok u → lookup p' = .ok u' → ∀ e ∈ u, ∀ e' ∈ u', e.sym = e'.sym → e.text = e'.text

section
variable (toks : List Tok) (src : Text) (lookup : Lookup) (ts : List Elem)

/-- How a target is spelled: a name of the file by its text, a name of another file as it is exported. -/
def Spelled : Target → String → Prop
  | .here m, x => (.token .ident, spanAt ts m) ∈ place 0 toks ∧ str (textAt src (spanAt ts m)) = x
  | .other s, x => ∃ p u, lookup p = .ok u ∧ ∃ e ∈ u, e.sym = s ∧ e.text = x

variable {toks src lookup ts}

theorem Spelled.unique (hn : Named lookup) {t : Target} {x y : String} (hx : Spelled toks src lookup ts t x) (hy : Spelled toks src lookup ts t y) : x = y := by
  cases t with
  | here m => exact hx.2.symm.trans hy.2
  | other s =>
    obtain ⟨p, u, h1, e, h2, h3, rfl⟩ := hx
    obtain ⟨p', u', g1, e', g2, g3, rfl⟩ := hy
    exact hn p p' u u' h1 g1 e h2 e' g2 (h3.trans g3.symm)

theorem slice_text (src : Text) {a : Nat} {sp : Nat × Nat} (h : a ≤ sp.1) : Source.slice ⟨a, src.drop a⟩ sp = textAt src sp := by
  simp only [Source.slice, textAt, List.drop_drop]
  rw [show a + (sp.1 - a) = sp.1 by omega, show sp.2 - a - (sp.1 - a) = sp.2 - sp.1 by omega]

/-- The names of the items are spelled as they say. -/
theorem names_spelled (h : Trees toks ts) {k : Nat} {i : Item} (hk : (itemsFrom lookup src (width ts) 0 ts)[k]? = some i) :
    ∀ n ∈ namesItem i, OK (Spelled toks src lookup ts) n := by
  obtain ⟨t, h1, rfl⟩ := itemsFrom_get hk
  rw [Nat.zero_add]
  have ht := List.mem_of_getElem? h1
  refine root_all lookup fun d hd v hv => ?_
  have hname : isName d = true := by
    match d, hv with
    | .node id k sp f cs, hv => cases k <;> first | rfl | cases hv
  have hnn : d ∈ nameNodes t := List.mem_filter.2 ⟨hd, hname⟩
  have htok := name_token (h.good t ht) hnn
  obtain ⟨l1, l2, -⟩ := h.leaves t ht _ (name_leaf (h.good t ht) hnn)
  match d, hname, hv, hd, htok, l1, l2 with
  | .node id .name sp f cs, _, hv, hd, htok, l1, l2 =>
    have hs := spanAt_node h1 (h.ids t ht) hd
    simp only [nodeId] at hs
    cases hv
    show (_ ∈ _) ∧ _ = _
    simp only [toName]
    rw [hs]
    refine ⟨l1, ?_⟩
    rw [children] at htok
    rw [Lower.firstToken, Lower.tokensIn_spans, htok]
    simp only [List.map_cons, List.map_nil, List.head?_cons, Option.map_some, Option.getD_some]
    rw [slice_text src l2]

theorem import_ok {me : Nat} (hf : Elsewhere me lookup) {nd o} : ImportOK (Spelled toks src lookup ts) me (toItemO lookup nd o) := by
  match o with
  | none => trivial
  | some (.value ..) => trivial
  | some (.type ..) => trivial
  | some (.import_ node n ex none) => trivial
  | some (.import_ node n ex (some p)) =>
    simp only [toItemO, toItem, toImport]
    cases hl : lookup ((p.drop 1).take (p.length - 2)) with
    | error e => trivial
    | ok u =>
      intro e he
      simp only [erase]
      rw [if_neg (hf _ _ hl e he)]
      exact ⟨_, u, hl, e, he, rfl, rfl⟩

/-- What resolution records is spelled the same. -/
theorem unit_ok (h : Trees toks ts) {me : Nat} (hf : Elsewhere me lookup) : ∀ o ∈ (unitOf lookup me src ts).rules, OutOK (Spelled toks src lookup ts) o := by
  refine specUnit_ok ⟨nofun, nofun⟩ fun i hi => ?_
  obtain ⟨k, hk⟩ := List.mem_iff_getElem?.1 hi
  refine ⟨names_spelled h hk, ?_⟩
  obtain ⟨t, -, rfl⟩ := itemsFrom_get hk
  exact import_ok hf

variable {s : Src}

theorem findRefAt_mem {S : Type} {pos : Nat} : ∀ {os : List (Out S)} {b : Nat} {r}, s.findRefAt pos b os = some r → r ∈ (flat os).refs ∧ inside (s.span r.2) pos = true
  | o :: os, b, r, h => by
    have hc : (flat (o :: os)).refs = o.refs ++ (flat os).refs := rfl
    rw [hc]
    unfold Src.findRefAt at h
    split at h
    · split at h
      · rename_i r' hr
        cases h
        exact ⟨List.mem_append_left _ (List.mem_of_find?_eq_some hr), by simpa using List.find?_some hr⟩
      · have := findRefAt_mem h
        exact ⟨List.mem_append_right _ this.1, this.2⟩
    · have := findRefAt_mem h
      exact ⟨List.mem_append_right _ this.1, this.2⟩

theorem findDefAt_mem {S : Type} {pos : Nat} : ∀ {os : List (Out S)} {b : Nat} {d}, s.findDefAt pos b os = some d → d ∈ (flat os).defs ∧ inside (s.span d.node) pos = true
  | o :: os, b, d, h => by
    have hc : (flat (o :: os)).defs = o.defs ++ (flat os).defs := rfl
    rw [hc]
    unfold Src.findDefAt at h
    split at h
    · split at h
      · rename_i r' hr
        cases h
        exact ⟨List.mem_append_left _ (List.mem_of_find?_eq_some hr), by simpa using List.find?_some hr⟩
      · have := findDefAt_mem h
        exact ⟨List.mem_append_right _ this.1, this.2⟩
    · have := findDefAt_mem h
      exact ⟨List.mem_append_right _ this.1, this.2⟩

theorem outs_refs {n : Nat} {r : Sym × Nat} (h : r ∈ (flat (s.outs n)).refs) : (erase s.me r.1, r.2) ∈ (flat s.rules).refs := by
  rw [Api.flat_map_refs, List.mem_map]
  refine ⟨r, ?_, rfl⟩
  rw [s.outs_take] at h
  obtain ⟨o, ho, hr⟩ := List.mem_flatMap.1 h
  exact List.mem_flatMap.2 ⟨o, List.mem_of_mem_take ho, hr⟩

theorem outs_defs {n : Nat} {d : Def Sym} (h : d ∈ (flat (s.outs n)).defs) : d.map (erase s.me) ∈ (flat s.rules).defs := by
  rw [Api.flat_map_defs, List.mem_map]
  refine ⟨d, ?_, rfl⟩
  rw [s.outs_take] at h
  exact Api.flat_take_sub h

/-- An identifier of the text. -/
def Ident (toks : List Tok) (sp : Nat × Nat) : Prop := (.token .ident, sp) ∈ place 0 toks

section
variable (h : Trees toks ts) {me : Nat} (hf : Elsewhere me lookup) (hn : Named lookup)
include h hf hn

theorem ref_ok {n : Nat} {r : Sym × Nat} (hr : r ∈ (flat ((unitOf lookup me src ts).outs n)).refs) :
    ∃ x, Spelled toks src lookup ts (erase me r.1) x ∧ Spelled toks src lookup ts (.here r.2) x := by
  obtain ⟨o, ho, hr⟩ := List.mem_flatMap.1 (outs_refs hr)
  exact (unit_ok h hf o ho).refs _ hr

theorem def_ok {n : Nat} {d : Def Sym} (hd : d ∈ (flat ((unitOf lookup me src ts).outs n)).defs) :
    (d.hasName = true → Spelled toks src lookup ts (erase me d.sym) d.text ∧ Spelled toks src lookup ts (.here d.node) d.text) ∧
    (d.hasName = false → erase me d.sym = .here d.node) := by
  obtain ⟨o, ho, hd⟩ := List.mem_flatMap.1 (outs_defs hd)
  exact ((unit_ok h hf o ho).defs _ hd).1

/-- A definition is spelled like its symbol. -/
theorem def_same {n : Nat} {d : Def Sym} {x : String} (hd : d ∈ (flat ((unitOf lookup me src ts).outs n)).defs) (hx : Spelled toks src lookup ts (erase me d.sym) x) :
    Spelled toks src lookup ts (.here d.node) x := by
  obtain ⟨h1, h2⟩ := def_ok h hf hn hd
  cases hh : d.hasName with
  | true =>
    obtain ⟨g1, g2⟩ := h1 hh
    rw [hx.unique hn g1]
    exact g2
  | false => rw [← h2 hh]; exact hx

/-- What go-to-definition finds. -/
theorem definition_same {n pos : Nat} {a : Nat × Nat} (ha : ((unitOf lookup me src ts).findDefinition n pos).1 = some a) :
    inside a pos = true ∨ ∃ c, Ident toks c ∧ inside c pos = true ∧ Ident toks a ∧ textAt src a = textAt src c := by
  simp only [Src.findDefinition] at ha
  split at ha
  · rename_i r hr
    obtain ⟨hr1, hr2⟩ := findRefAt_mem hr
    obtain ⟨⟨o, d⟩, hd, rfl⟩ := Option.map_eq_some_iff.1 ha
    obtain ⟨k, hk, hd1, hd2⟩ := Api.findDef_item hd
    have hd3 : d ∈ (flat ((unitOf lookup me src ts).outs ((unitOf lookup me src ts).compileUpTo (pos + 1) n))).defs :=
      List.mem_flatMap.2 ⟨o, List.mem_of_getElem? hk, hd1⟩
    obtain ⟨x, g1, g2⟩ := ref_ok h hf hn hr1
    rw [← hd2] at g1
    have g3 := def_same h hf hn hd3 g1
    exact .inr ⟨_, g2.1, hr2, g3.1, str_inj (g3.2.trans g2.2.symm)⟩
  · obtain ⟨d, hd, rfl⟩ := Option.map_eq_some_iff.1 ha
    exact .inl (findDefAt_mem hd).2

/-- What find-references finds. -/
theorem references_same {n pos : Nat} {as : List (Nat × Nat)} (has : ((unitOf lookup me src ts).findReferences n pos).1 = some as) :
    ∀ a ∈ as, Ident toks a ∧ ∃ c, Ident toks c ∧ inside c pos = true ∧ textAt src a = textAt src c := by
  have spans : ∀ {x : Sym} {rs : List (Sym × Nat)} {n : Nat}, (∀ r ∈ rs, r ∈ (flat ((unitOf lookup me src ts).outs n)).refs) →
      ∀ a ∈ (unitOf lookup me src ts).refSpans x rs, ∃ y m, a = spanAt ts m ∧ Spelled toks src lookup ts (erase me x) y ∧ Spelled toks src lookup ts (.here m) y := by
    intro x rs n hrs a ha
    obtain ⟨r, hr, e⟩ := List.mem_filterMap.1 ha
    split at e
    · rename_i hx
      cases e
      obtain ⟨y, g1, g2⟩ := ref_ok h hf hn (hrs r hr)
      exact ⟨y, r.2, rfl, hx ▸ g1, g2⟩
    · cases e
  simp only [Src.findReferences] at has
  split at has
  · cases has
  rename_i x hx
  split at has
  · cases has
  rename_i o d hd
  have all : ∀ a ∈ as, ∃ y m, a = spanAt ts m ∧ Spelled toks src lookup ts (erase me x) y ∧ Spelled toks src lookup ts (.here m) y := by
    split at has
    · cases has
      obtain ⟨k, hk, -, -⟩ := Api.findDef_item hd
      exact spans fun r hr => List.mem_flatMap.2 ⟨o, List.mem_of_getElem? hk, hr⟩
    · cases has
      exact spans fun r hr => hr
  intro a ha
  obtain ⟨y, m, rfl, g1, g2⟩ := all a ha
  refine ⟨g2.1, ?_⟩
  have at' : ∃ m', inside (spanAt ts m') pos = true ∧ Spelled toks src lookup ts (.here m') y := by
    unfold Src.symAt at hx
    split at hx
    · rename_i r hr
      cases hx
      obtain ⟨hr1, hr2⟩ := findRefAt_mem hr
      obtain ⟨y', k1, k2⟩ := ref_ok h hf hn hr1
      rw [g1.unique hn k1]
      exact ⟨r.2, hr2, k2⟩
    · obtain ⟨d', hd', rfl⟩ := Option.map_eq_some_iff.1 hx
      obtain ⟨k1, k2⟩ := findDefAt_mem hd'
      exact ⟨d'.node, k2, def_same h hf hn k1 g1⟩
  obtain ⟨m', k1, k2⟩ := at'
  exact ⟨_, k2.1, k1, str_inj (g2.2.trans k2.2.symm)⟩
end
end

/-! ### What files export -/

theorem expose_vis {unit : List (Export Target)} : ∀ {ns : List Name} {d}, d ∈ (specExpose unit ns).defs → d.vis ≠ .export
  | n :: ns, d, h => by
    simp only [specExpose, SOut.append_def] at h
    rcases List.mem_append.1 h with h | h
    · split at h
      · cases h
      · simp only [exposedDefs, List.mem_filterMap] at h
        obtain ⟨_, -, h⟩ := h
        obtain ⟨e, -, rfl⟩ := Option.map_eq_some_iff.1 h
        exact nofun
    · exact expose_vis h

theorem import_vis {me : Nat} {env : Env} {i : Item} (hi : Api.isImport i = true) {d : Def Target} (hd : d ∈ (specItem me env i).defs) : d.vis ≠ .export := by
  match i, hi with
  | .importI node .noPath name exposed, _ => cases hd
  | .importI node (.failed e m) name exposed, _ => cases hd
  | .importI node (.ok unit) none exposed, _ =>
    simp only [specItem, specImport, SOut.append_def] at hd
    rcases List.mem_append.1 hd with hd | hd
    · rw [List.mem_singleton.1 hd]; exact nofun
    · exact expose_vis hd
  | .importI node (.ok unit) (some n) exposed, _ =>
    simp only [specItem, specImport, SOut.append_def] at hd
    rcases List.mem_append.1 hd with hd | hd
    · rw [List.mem_singleton.1 hd]; exact nofun
    · exact expose_vis hd

theorem mem_collect {S : Type} {defs : List (Def S)} {e : Export S} (h : e ∈ collectExports defs) : ∃ d ∈ defs, d.vis = .export ∧ d.sym = e.sym ∧ d.text = e.text := by
  have inner : ∀ (d : Def S) (nss : List NS) (acc : List (Export S)), e ∈ nss.foldl (fun ex ns => ⟨ns, d.text, d.sym, d.kind⟩ :: ex) acc →
      e ∈ acc ∨ (d.sym = e.sym ∧ d.text = e.text) := by
    intro d nss
    induction nss with
    | nil => intro acc h; exact .inl h
    | cons n nss ih =>
      intro acc h
      rcases ih _ h with h | h
      · rcases List.mem_cons.1 h with rfl | h
        · exact .inr ⟨rfl, rfl⟩
        · exact .inl h
      · exact .inr h
  have outer : ∀ (ds : List (Def S)) (acc : List (Export S)), e ∈ ds.foldl (fun ex d =>
      if d.vis = .export then d.kind.namespaces.foldl (fun ex ns => ⟨ns, d.text, d.sym, d.kind⟩ :: ex) ex else ex) acc →
      e ∈ acc ∨ ∃ d ∈ ds, d.vis = .export ∧ d.sym = e.sym ∧ d.text = e.text := by
    intro ds
    induction ds with
    | nil => intro acc h; exact .inl h
    | cons d ds ih =>
      intro acc h
      rcases ih _ h with h | ⟨d', h1, h2⟩
      · dsimp only at h
        split at h
        · rename_i hv
          rcases inner d _ _ h with h | h
          · exact .inl h
          · exact .inr ⟨d, by simp, hv, h⟩
        · exact .inl h
      · exact .inr ⟨d', by simp [h1], h2⟩
  rcases outer defs [] h with h | h
  · cases h
  · exact h

/-- What a file exports: its own symbols, each under one name. -/
theorem exports_own {s : Src} (h : Api.Laid s) {e : Export Sym} (he : e ∈ collectExports (flat s.full).defs) :
    e.sym.unit = s.me ∧ ∃ d ∈ (flat s.full).defs, d.sym = e.sym ∧ d.text = e.text := by
  obtain ⟨d, h1, h2, h3, h4⟩ := mem_collect he
  refine ⟨?_, d, h1, h3, h4⟩
  have h5 : d.map (erase s.me) ∈ (flat s.rules).defs := by rw [Api.flat_map_defs]; exact List.mem_map.2 ⟨d, h1, rfl⟩
  obtain ⟨k, o, hk, hd⟩ := Api.flat_mem_defs.1 h5
  obtain ⟨i, env, hi, rfl⟩ := Src.rules_get hk
  cases hb : Api.isImport i with
  | true => exact absurd h2 (import_vis hb hd)
  | false =>
    have e1 : erase s.me d.sym = .here d.node := ((Api.own_specItem env i hb).all _ hd).1
    rw [← h3]
    unfold erase at e1
    split at e1
    · assumption
    · cases e1

theorem exports_named {s : Src} (h : Api.Laid s) {e e' : Export Sym} (he : e ∈ collectExports (flat s.full).defs)
    (he' : e' ∈ collectExports (flat s.full).defs) (hs : e.sym = e'.sym) : e.text = e'.text := by
  obtain ⟨h1, d, h2, h3, h4⟩ := exports_own h he
  obtain ⟨g1, d', g2, g3, g4⟩ := exports_own h he'
  obtain ⟨n, ok⟩ := Api.defsOK h
  have : d = d' := by
    have nd := ok.nodup
    have hu : d.sym.unit = s.me := by rw [h3, h1]
    have hu' : d'.sym.unit = s.me := by rw [g3, g1]
    have hi : d.sym.idx = d'.sym.idx := by rw [h3, g3, hs]
    clear ok he he' h4 g4
    generalize (flat s.full).defs = l at nd h2 g2
    clear h3 g3
    induction l with
    | nil => cases h2
    | cons a l ih =>
      have mem : ∀ {x : Def Sym}, x ∈ l → x.sym.unit = s.me → x.sym.idx ∈ ownIdx s.me l := fun {x} hx hu =>
        List.mem_filterMap.2 ⟨x, hx, by rw [if_pos hu]⟩
      have tl : (ownIdx s.me l).Nodup := by
        unfold ownIdx at nd ⊢
        rw [List.filterMap_cons] at nd
        split at nd
        · exact nd
        · exact (List.nodup_cons.1 nd).2
      have hd : a.sym.unit = s.me → a.sym.idx ∉ ownIdx s.me l := by
        intro hu
        unfold ownIdx at nd ⊢
        rw [List.filterMap_cons, if_pos hu] at nd
        exact (List.nodup_cons.1 nd).1
      rcases List.mem_cons.1 h2 with rfl | h5 <;> rcases List.mem_cons.1 g2 with rfl | g5
      · rfl
      · exact absurd (hi ▸ mem g5 hu') (hd hu)
      · exact absurd (hi ▸ mem h5 hu) (hd hu')
      · exact ih tl h5 g5
  rw [← h4, ← g4, this]

/-- What is assumed of imports holds if they give the exports of other files: `files p` is the unit the path `p` leads to. -/
theorem imports_of_files {me : Nat} {files : Text → Except ErrKind Src} (hl : ∀ p s, files p = .ok s → Api.Laid s ∧ s.me ≠ me)
    (hk : ∀ p p' s s', files p = .ok s → files p' = .ok s' → s.me = s'.me → s = s') :
    Elsewhere me (fun p => (files p).map fun s => collectExports (flat s.full).defs) ∧ Named (fun p => (files p).map fun s => collectExports (flat s.full).defs) := by
  have get : ∀ {p u}, (files p).map (fun s => collectExports (flat s.full).defs) = .ok u → ∃ s, files p = .ok s ∧ u = collectExports (flat s.full).defs := by
    intro p u h
    cases hf : files p with
    | error e => rw [hf] at h; cases h
    | ok s => rw [hf] at h; cases h; exact ⟨s, rfl, rfl⟩
  refine ⟨fun p u h e he => ?_, fun p p' u u' h h' e he e' he' hs => ?_⟩
  · obtain ⟨s, h1, rfl⟩ := get h
    obtain ⟨h2, h3⟩ := hl p s h1
    rw [(exports_own h2 he).1]
    exact h3
  · obtain ⟨s, h1, rfl⟩ := get h
    obtain ⟨s', h1', rfl⟩ := get h'
    obtain ⟨h2, -⟩ := hl p s h1
    obtain ⟨h2', -⟩ := hl p' s' h1'
    have : s = s' := hk p p' s s' h1 h1' (by rw [← (exports_own h2 he).1, ← (exports_own h2' he').1, hs])
    subst this
    exact exports_named h2 he he' hs

/-- **C55**.  Whatever the text, the analyses, the history of requests and what is imported: every place that find-references lists is
an identifier spelled like the one the cursor is at; and the place go-to-definition goes to is either at the cursor already, or such an identifier. -/
theorem spelled_same {S D I : Type} {p : Phases S D I} (hp : p.Lawful) (err : Text → Nat) (src : Text) (os : List Nat) {lookup : Lookup} {me : Nat}
    (hf : Elsewhere me lookup) (hn : Named lookup) :
    ∃ before items, p.requests (rules err) src os [] = some before ∧ p.compileUpTo (rules err) src src.length before = some items ∧
      (∀ n pos as, ((unitOf lookup me src (items.map p.syn)).findReferences n pos).1 = some as → ∀ a ∈ as, Ident (lex (rules err) src) a ∧
        ∃ c, Ident (lex (rules err) src) c ∧ inside c pos = true ∧ textAt src a = textAt src c) ∧
      (∀ n pos a, ((unitOf lookup me src (items.map p.syn)).findDefinition n pos).1 = some a → inside a pos = true ∨
        ∃ c, Ident (lex (rules err) src) c ∧ inside c pos = true ∧ Ident (lex (rules err) src) a ∧ textAt src a = textAt src c) := by
  obtain ⟨before, items, h1, h2, h3⟩ := unit_trees hp err src os
  exact ⟨before, items, h1, h2, fun n pos as => references_same h3 hf hn, fun n pos a => definition_same h3 hf hn⟩

end Tic.Spell
