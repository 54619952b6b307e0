/-
The accessors of the tree of a program show the program: items.
-/
import Verif.LowerShows

namespace Tic.Lower

open Tic.Parser

theorem show_field {s c} (f : SField) (h : label s c = [f.tree]) : (∃ v, fieldOf s c = some v ∧ ShowsField v f) ∧ nameOf s c = none ∧ tokenOf s c = none := by
  cases f with
  | rec_ =>
    obtain ⟨id, a, b, cs, cs', rfl, -, -⟩ := lab_node h
    exact ⟨⟨_, rfl, .rec_⟩, rfl, rfl⟩
  | type t =>
    obtain ⟨id, a, b, cs, cs', rfl, h1, h2⟩ := lab_node h
    rcases h1 with - | ⟨ha, h⟩
    cases h
    obtain ⟨u, e1, e2⟩ := show_ty t ha
    refine ⟨⟨.type (some u), ?_, .type e2⟩, rfl, rfl⟩
    rw [fieldOf, h2.tys]
    acc [e1]

theorem show_fields {s} : ∀ (fs : List SField) {cs}, Labs s cs (fs.map SField.tree) → Each ShowsField (cs.filterMap (fieldOf s)) fs ∧ names s cs = []
  | [], _, .nil => ⟨.nil, rfl⟩
  | f :: fs, _, .cons h h' => by
    obtain ⟨⟨v, e1, e2⟩, e3, -⟩ := show_field f h
    obtain ⟨g1, g2⟩ := show_fields fs h'
    exact ⟨by rw [fm_cons, e1]; exact .cons e2 g1, by rw [names_cons, e3, g2]; rfl⟩

theorem show_ctor {s c} (k : SCtor) (bar : Bool) (h : label s c = [k.tree bar]) :
    (∃ v, ctorOf s c = some v ∧ ShowsCtor v k) ∧ nameOf s c = none ∧ tokenOf s c = none ∧ paramsOf s c = none := by
  obtain ⟨id, a, b, cs, cs', rfl, h1, h2⟩ := lab_node h
  refine ⟨?_, rfl, rfl, rfl⟩
  obtain ⟨c1, c2, rfl, h3, h4⟩ := h1.split
  rcases h4 with - | ⟨ha, h⟩
  obtain ⟨v, hv⟩ := show_name ha
  obtain ⟨g1, g2⟩ := show_fields _ h
  refine ⟨⟨some v, cs.filterMap (fieldOf s)⟩, ?_, .mk hv.shows ?_⟩
  · rw [ctorOf, h2.names]
    rcases lab_opt h3 with ⟨rfl, sp, rfl⟩ | ⟨rfl, rfl⟩ <;> acc [hv.name]
  · rw [h2.fields]
    rcases lab_opt h3 with ⟨rfl, sp, rfl⟩ | ⟨rfl, rfl⟩
    · simp only [List.cons_append, List.nil_append]
      rw [fm_cons, fm_cons, tok_field, hv.field]; exact g1
    · simp only [List.nil_append]
      rw [fm_cons, hv.field]; exact g1

theorem show_ctors {s} : ∀ (ks : List SCtor) {cs}, Labs s cs (ks.map (·.tree true)) →
    Each ShowsCtor (cs.filterMap (ctorOf s)) ks ∧ names s cs = [] ∧ tokensIn s cs = [] ∧ paramLists s cs = []
  | [], _, .nil => ⟨.nil, rfl, rfl, rfl⟩
  | k :: ks, _, .cons h h' => by
    obtain ⟨⟨v, e1, e2⟩, e3, e4, e5⟩ := show_ctor k true h
    obtain ⟨g1, g2, g3, g4⟩ := show_ctors ks h'
    exact ⟨by rw [fm_cons, e1]; exact .cons e2 g1, by rw [names_cons, e3, g2]; rfl, by rw [tokensIn_cons, e4, g3]; rfl, by rw [params_cons, e5, g4]; rfl⟩

theorem show_comma {s} (b : Bool) : ∀ (ns : List Text) {cs}, Labs s cs (commaT ns b) → Each ShowsName (names s cs) ns
  | [], cs, h => by
    rw [commaT] at h
    rcases lab_opt h with ⟨-, sp, rfl⟩ | ⟨-, rfl⟩
    · acc []; exact .nil
    · acc []; exact .nil
  | [n], cs, h => by
    rw [commaT] at h
    rcases h with - | ⟨ha, h⟩
    obtain ⟨v, hv⟩ := show_name ha
    rcases lab_opt h with ⟨-, sp, rfl⟩ | ⟨-, rfl⟩
    · acc [hv.name]; exact .cons hv.shows .nil
    · acc [hv.name]; exact .cons hv.shows .nil
  | n :: m :: ns, cs, h => by
    rw [commaT] at h
    rcases h with - | ⟨ha, h⟩
    rcases h with - | ⟨hb, h⟩
    obtain ⟨v, hv⟩ := show_name ha
    obtain ⟨sp, rfl, -⟩ := lab_tok hb
    acc [hv.name]
    exact .cons hv.shows (show_comma b (m :: ns) h)

/-- An optional name. -/
theorem show_optName {s cs} (n : Option Text) (h : Labs s cs (n.toList.map nmT)) : ∃ v : Option VName, ShowsOpt ShowsName v n ∧ names s cs = v.toList ∧
    exposedLists s cs = [] ∧ tokensIn s cs = [] := by
  cases n with
  | none => cases h; exact ⟨none, .none, rfl, rfl, rfl⟩
  | some n =>
    rcases h with - | ⟨ha, h⟩
    cases h
    obtain ⟨v, hv⟩ := show_name ha
    exact ⟨some v, .some hv.shows, by acc [hv.name], by acc [hv.exposed], by acc [hv.tok]⟩

/-- An optional exposed list. -/
theorem show_exposed {s cs} (l : Option (List Text)) (b : Bool)
    (h : Labs s cs (l.toList.map fun ns => .node .exposedList (kw .leftParen :: commaT ns b ++ [kw .rightParen]))) :
    ∃ v : Option (List VName), ShowsOpt (Each ShowsName) v l ∧ exposedLists s cs = v.toList ∧ names s cs = [] ∧ tokensIn s cs = [] := by
  cases l with
  | none => cases h; exact ⟨none, .none, rfl, rfl, rfl⟩
  | some ns =>
    rcases h with - | ⟨ha, h⟩
    cases h
    obtain ⟨id, _, _, ds, ds', rfl, h1, h2⟩ := lab_node ha
    rcases h1 with - | ⟨hb, h⟩
    obtain ⟨c1, c2, rfl, h3, h4⟩ := h.split
    rcases h4 with - | ⟨hc, h⟩
    cases h
    obtain ⟨_, rfl, -⟩ := lab_tok hb
    obtain ⟨_, rfl, -⟩ := lab_tok hc
    have e : names s ds = names s c1 := by rw [h2.names]; acc []
    exact ⟨some (names s ds), .some (by rw [e]; exact show_comma b ns h3), rfl, rfl, rfl⟩

theorem show_params {s cs} (ps : List Text) (h : Labs s cs (if ps = [] then [] else [.node .typeParams (ps.map nmT)])) :
    ∃ v : Option (List VName), ShowsParams v ps ∧ paramLists s cs = v.toList ∧ names s cs = [] ∧ tokensIn s cs = [] ∧ cs.filterMap (ctorOf s) = [] := by
  split at h
  · rename_i hp
    subst hp
    cases h
    exact ⟨none, .none, rfl, rfl, rfl, rfl⟩
  · rename_i hp
    rcases h with - | ⟨ha, h⟩
    cases h
    obtain ⟨id, _, _, ds, ds', rfl, h1, h2⟩ := lab_node ha
    have e := show_names h1
    rw [← h2.names] at e
    exact ⟨some (names s ds), .some e hp, rfl, rfl, rfl, rfl⟩

theorem show_item {s c} (i : SItem) (h : label s c = [i.tree]) : ∃ v, itemOf s c = some v ∧ ShowsItem v i := by
  cases i with
  | import_ n l b p =>
    obtain ⟨id, _, _, cs, cs', rfl, h1, h2⟩ := lab_node h
    simp only [List.append_assoc, List.cons_append, List.nil_append] at h1
    rcases h1 with - | ⟨ha, h⟩
    obtain ⟨c1, c2, rfl, h3, h4⟩ := h.split
    obtain ⟨c2, c3, rfl, h5, h⟩ := h4.split
    rcases h with - | ⟨hb, h⟩
    rcases h with - | ⟨hc, h⟩
    rcases h with - | ⟨hd, h⟩
    cases h
    obtain ⟨_, rfl, -⟩ := lab_tok ha
    obtain ⟨_, rfl, -⟩ := lab_tok hb
    obtain ⟨sp, rfl, ht⟩ := lab_tok hc
    simp only [carries, if_true, Option.some.injEq] at ht
    obtain ⟨_, rfl, -⟩ := lab_tok hd
    obtain ⟨v, g1, g2, g3, g4⟩ := show_optName n h3
    obtain ⟨w, f1, f2, f3, f4⟩ := show_exposed l b h5
    refine ⟨.import_ id v w (some p), ?_, .import_ g1 f1⟩
    rw [itemOf, h2.names, h2.exposed, childToken, h2.tokens]
    acc [g2, g3, g4, f2, f3, f4, ht]
    exact ⟨by cases v <;> rfl, by cases w <;> rfl⟩
  | value x n ty e =>
    obtain ⟨id, _, _, cs, cs', rfl, h1, h2⟩ := lab_node h
    simp only [List.append_assoc, List.cons_append, List.nil_append] at h1
    obtain ⟨c1, c2, rfl, h3, h4⟩ := h1.split
    rcases h4 with - | ⟨ha, h⟩
    rcases h with - | ⟨hb, h⟩
    obtain ⟨c2, c3, rfl, h4, h⟩ := h.split
    rcases h with - | ⟨hc, h⟩
    rcases h with - | ⟨hd, h⟩
    rcases h with - | ⟨he, h⟩
    cases h
    obtain ⟨_, rfl, -⟩ := lab_tok ha
    obtain ⟨_, rfl, -⟩ := lab_tok hc
    obtain ⟨_, rfl, -⟩ := lab_tok he
    obtain ⟨v, hv⟩ := show_name hb
    obtain ⟨w, e1, e2⟩ := show_ex e hd
    obtain ⟨⟨u, g0, g1⟩, g2, g3, g4⟩ := show_ann ty h4
    have o := ex_only e1
    refine ⟨.value x (some v) u (some w), ?_, .value hv.shows g0 e2⟩
    rw [itemOf, h2.names, h2.tys, h2.exprs, childToken, h2.tokens]
    have g5 : (tokensIn s c2).find? (fun t => t.1 == .export_) = none := by
      rw [List.find?_eq_none]
      intro p hp
      rw [g4 p hp]
      decide
    have g6 : u.toList[0]? = u := by cases u <;> rfl
    rcases lab_opt h3 with ⟨rfl, sp, rfl⟩ | ⟨rfl, rfl⟩ <;>
      acc [hv.name, hv.ty, hv.ex, hv.tok, g1, g2, g3, g5, g6, e1, o.1.name, o.1.tok, o.2]
  | type x n ps xc bar k ks =>
    obtain ⟨id, _, _, cs, cs', rfl, h1, h2⟩ := lab_node h
    simp only [List.append_assoc, List.cons_append, List.nil_append] at h1
    obtain ⟨c1, c2, rfl, h3, h4⟩ := h1.split
    rcases h4 with - | ⟨ha, h⟩
    rcases h with - | ⟨hb, h⟩
    obtain ⟨c2, c3, rfl, h4, h⟩ := h.split
    rcases h with - | ⟨hc, h⟩
    obtain ⟨c3, c4, rfl, h5, h⟩ := h.split
    rcases h with - | ⟨hd, h⟩
    obtain ⟨c4, c5, rfl, h6, h⟩ := h.split
    rcases h with - | ⟨he, h⟩
    cases h
    obtain ⟨_, rfl, -⟩ := lab_tok ha
    obtain ⟨_, rfl, -⟩ := lab_tok hc
    obtain ⟨_, rfl, -⟩ := lab_tok he
    obtain ⟨v, hv⟩ := show_name hb
    obtain ⟨w, p1, p2, p3, p4, p5⟩ := show_params ps h4
    obtain ⟨⟨r, e1, e2⟩, e3, e4, e5⟩ := show_ctor k bar hd
    obtain ⟨g1, g2, g3, g4⟩ := show_ctors ks h6
    refine ⟨.type id x (some v) w xc (r :: c4.filterMap (ctorOf s)), ?_, .type hv.shows p1 e2 g1⟩
    rw [itemOf, h2.names, h2.params, h2.ctors, typeExport, typeExport, h2.tokens]
    have g6 : w.toList[0]? = w := by cases w <;> rfl
    rcases lab_opt h3 with ⟨rfl, sp, rfl⟩ | ⟨rfl, rfl⟩ <;> rcases lab_opt h5 with ⟨rfl, sp, rfl⟩ | ⟨rfl, rfl⟩ <;>
      acc [hv.name, hv.tok, hv.params, hv.ctor, p2, p3, p4, p5, e1, e3, e4, e5, g2, g3, g4, g6, fm_cons, List.takeWhile_cons, List.dropWhile_cons]

end Tic.Lower
