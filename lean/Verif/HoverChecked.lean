/-
The type checker visits every expression of an item that was read without errors.
-/
import Verif.Hover
import Verif.PropLower

namespace Tic.Hover

open Tic.Parser
open Tic.Lower

/-- The ids of the expressions of a tree. -/
def exprIds (c : Elem) : List Nat := ((descendants c).filter exprNode).map nodeId
/-- Those of a list of trees. -/
def exprIdsIn (cs : List Elem) : List Nat := ((descendants.go cs).filter exprNode).map nodeId

theorem ids_node (id k a b cs) : exprIds (.node id k a b cs) = (if isExpr k then [id] else []) ++ exprIdsIn cs := by
  unfold exprIds exprIdsIn
  rw [descendants, List.filter_cons]
  cases h : isExpr k <;> simp [exprNode, h, nodeId]

theorem ids_tok (k sp) : exprIds (.token k sp) = [] := rfl
theorem ids_nil : exprIdsIn [] = [] := rfl
theorem ids_cons (c cs) : exprIdsIn (c :: cs) = exprIds c ++ exprIdsIn cs := by simp [exprIdsIn, exprIds, descendants.go]
theorem ids_app (a b) : exprIdsIn (a ++ b) = exprIdsIn a ++ exprIdsIn b := by
  induction a with
  | nil => simp [ids_nil]
  | cons c a ih => simp [ids_cons, ih]

theorem checkeds_app (s) (a b : List Elem) : checkeds s (a ++ b) = checkeds s a ++ checkeds s b := by
  induction a with
  | nil => simp [checkeds]
  | cons c a ih => simp [checkeds, ih]

theorem checkedCases_app (s) (a b : List Elem) : checkedCases s (a ++ b) = checkedCases s a ++ checkedCases s b := by
  induction a with
  | nil => simp [checkedCases]
  | cons c a ih => simp [checkedCases, ih]

/-- Children that are the same for the type checker. -/
structure Same (s : Source) (a b : List Elem) : Prop where
  ids : exprIdsIn a = exprIdsIn b
  exprs : checkeds s a = checkeds s b
  cases : checkedCases s a = checkedCases s b
  items : a.filterMap (checkedItem s) = b.filterMap (checkedItem s)

/-- Taking the trivia out. -/
theorem strip (s) : ∀ cs : List Elem, ∃ cs', Labs s cs' (label.go s cs) ∧ Same s cs cs'
  | [] => ⟨[], .nil, by constructor <;> rfl⟩
  | .trivia k sp :: cs => by
    obtain ⟨cs', h1, h2⟩ := strip s cs
    refine ⟨cs', by simpa [label.go, label] using h1, ?_⟩
    exact ⟨by rw [ids_cons, h2.1]; rfl, by rw [checkeds, h2.2]; simp [checked], by rw [checkedCases, h2.3]; simp [checkedCase],
      by rw [fm_cons, h2.4]; simp [checkedItem]⟩
  | .token k sp :: cs => by
    obtain ⟨cs', h1, h2⟩ := strip s cs
    refine ⟨.token k sp :: cs', by rw [label.go, label]; exact .cons (by rw [label]) h1, ?_⟩
    exact ⟨by rw [ids_cons, ids_cons, h2.1], by rw [checkeds, checkeds, h2.2], by rw [checkedCases, checkedCases, h2.3], by rw [fm_cons, fm_cons, h2.4]⟩
  | .node id k a b ds :: cs => by
    obtain ⟨cs', h1, h2⟩ := strip s cs
    refine ⟨.node id k a b ds :: cs', by rw [label.go, label]; exact .cons (by rw [label]) h1, ?_⟩
    exact ⟨by rw [ids_cons, ids_cons, h2.1], by rw [checkeds, checkeds, h2.2], by rw [checkedCases, checkedCases, h2.3], by rw [fm_cons, fm_cons, h2.4]⟩

theorem strip_node {s c k ts} (h : label s c = [.node k ts]) : ∃ id a b cs cs', c = .node id k a b cs ∧ Labs s cs' ts ∧ Same s cs cs' := by
  cases c with
  | token k' sp => simp [label] at h
  | trivia => simp [label] at h
  | node id k' a b cs =>
    simp only [label, List.cons.injEq, TSyn.node.injEq, and_true] at h
    obtain ⟨rfl, h⟩ := h
    obtain ⟨cs', h1, h2⟩ := strip s cs
    exact ⟨id, a, b, cs, cs', rfl, h ▸ h1, h2⟩

/-! ### Parts without expressions -/

/-- No expression, and no case. -/
inductive Free : TSyn → Prop
  | tok {k t} : Free (.tok k t)
  | node {k cs} : isExpr k = false → k ≠ .matchCase → (∀ c ∈ cs, Free c) → Free (.node k cs)

theorem free_ids {s t} (h : Free t) : ∀ {c}, label s c = [t] → exprIds c = [] ∧ checked s c = none ∧ checkedCase s c = none := by
  induction h with
  | tok =>
    intro c hc
    obtain ⟨sp, rfl, -⟩ := lab_tok hc
    exact ⟨rfl, by simp [checked], by simp [checkedCase]⟩
  | @node k ts h1 h2 h3 ih =>
    intro c hc
    obtain ⟨id, a, b, cs, cs', rfl, h4, h5⟩ := strip_node hc
    have : ∀ {ds ts'}, Labs s ds ts' → (∀ t ∈ ts', t ∈ ts) → exprIdsIn ds = [] := by
      intro ds ts' hl
      induction hl with
      | nil => intro _; rfl
      | cons hd _ ihl =>
        intro hm
        rw [ids_cons, (ih _ (hm _ (by simp)) hd).1, ihl fun t ht => hm t (by simp [ht])]; rfl
    refine ⟨by rw [ids_node, h5.ids, this h4 fun _ h => h, h1]; rfl, ?_, ?_⟩
    · cases k <;> simp [isExpr] at h1 <;> simp [checked]
    · cases k <;> simp at h2 <;> simp [checkedCase]

theorem frees_ids {s ts} (h : ∀ t ∈ ts, Free t) : ∀ {cs}, Labs s cs ts → exprIdsIn cs = [] ∧ checkeds s cs = [] ∧ checkedCases s cs = [] := by
  induction ts with
  | nil => intro cs hl; cases hl; exact ⟨rfl, by simp [checkeds], by simp [checkedCases]⟩
  | cons t ts ih =>
    intro cs hl
    cases hl with
    | cons h1 h2 =>
      obtain ⟨a, b, c⟩ := free_ids (h t (by simp)) h1
      obtain ⟨a', b', c'⟩ := ih (fun t ht => h t (by simp [ht])) h2
      exact ⟨by rw [ids_cons, a, a']; rfl, by rw [checkeds, b, b']; rfl, by rw [checkedCases, c, c']; rfl⟩

theorem free_kw (k) : Free (kw k) := .tok
theorem free_nm (t) : Free (nmT t) := .node rfl (by simp) (by simp; exact .tok)
theorem free_path (ns n) : ∀ t ∈ pathT ns n, Free t := by
  cases ns <;> simp [pathT, free_nm, free_kw]

mutual
theorem free_ty : ∀ t : STy, Free t.tree
  | .int => by rw [STy.tree]; exact .node rfl (by simp) (by simp [free_kw])
  | .bool => by rw [STy.tree]; exact .node rfl (by simp) (by simp [free_kw])
  | .string => by rw [STy.tree]; exact .node rfl (by simp) (by simp [free_kw])
  | .named ns n args => by
    rw [STy.tree]
    refine .node rfl (by simp) fun c hc => ?_
    rcases List.mem_append.mp hc with hc | hc
    · exact free_path ns n c hc
    · exact free_tys args c hc
  | .paren t => by rw [STy.tree]; exact .node rfl (by simp) (by simp [free_kw, free_ty t])
  | .fn a b => by rw [STy.tree]; exact .node rfl (by simp) (by simp [free_kw, free_ty a, free_ty b])
theorem free_tys : ∀ ts : List STy, ∀ c ∈ STy.tree.trees ts, Free c
  | [], c, h => by simp [STy.tree.trees] at h
  | t :: ts, c, h => by
    rw [STy.tree.trees, List.mem_cons] at h
    rcases h with rfl | h
    · exact free_ty t
    · exact free_tys ts c h
end

theorem free_ann (t) : ∀ c ∈ annT t, Free c := by
  cases t <;> simp [annT, free_kw, free_ty]

theorem free_opt (b k) : ∀ c ∈ optT b k, Free c := by
  cases b <;> simp [optT, free_kw]

/-- Evaluating what is checked. -/
macro "vis" "[" ls:term,* "]" : tactic => do
  let ls := ls.getElems
  `(tactic| simp [ids_node, ids_tok, ids_nil, ids_cons, ids_app, checkeds, checkedCases, checkeds_app, checkedCases_app, isExpr, $[$ls:term],*])

theorem not_case {s c l} (h : checked s c = some l) : checkedCase s c = none := by
  cases c with
  | node id k a b cs => cases k <;> simp [checked] at h <;> simp [checkedCase]
  | token => simp [checked] at h
  | trivia => simp [checked] at h

/-- A constructor is seen in each case. -/
theorem case_named {s ns k vars e id a b cs} (h : label s (.node id .matchCase a b cs) = [SCase.tree (.mk ns k vars e)]) : (nameIn s cs).isSome := by
  have := show_cases (s := s) [.mk ns k vars e] (cs := [.node id .matchCase a b cs]) (by rw [caseTrees, caseTrees]; exact .cons h .nil)
  rw [cases, cases] at this
  simp only [caseOf, Option.toList, List.append_nil] at this
  generalize nameIn s cs = v at this ⊢
  generalize namespaceIn s cs = u at this
  generalize (varLists s cs)[0]? = w at this
  generalize (exprs s cs)[0]? = x at this
  cases this with
  | cons hp _ _ _ => cases hp <;> rfl

mutual
/-- Every expression is visited, once, in the order of the text. -/
theorem all_checked {s} : ∀ (e : SEx) {c}, label s c = [e.tree] → checked s c = some (exprIds c)
  | .name n, c, h => by
    rw [SEx.tree] at h
    obtain ⟨id, a, b, cs, cs', rfl, h1, h2⟩ := strip_node h
    obtain ⟨g1, -, -⟩ := frees_ids (by simp [free_nm]) h1
    rw [checked, ids_node, h2.ids, g1]; simp [isExpr]
  | .inModule m n, c, h => by
    rw [SEx.tree] at h
    obtain ⟨id, a, b, cs, cs', rfl, h1, h2⟩ := strip_node h
    obtain ⟨g1, -, -⟩ := frees_ids (by simp [free_nm, free_kw]) h1
    rw [checked, ids_node, h2.ids, g1]; simp [isExpr]
  | .apply f x, c, h => by
    rw [SEx.tree] at h
    obtain ⟨id, a, b, cs, cs', rfl, h1, h2⟩ := strip_node h
    rcases h1 with - | ⟨ha, h⟩
    rcases h with - | ⟨hb, h⟩
    cases h
    rw [checked, ids_node, h2.ids, h2.exprs]
    vis [all_checked f ha, all_checked x hb]
  | .binary o l r, c, h => by
    rw [SEx.tree] at h
    obtain ⟨id, a, b, cs, cs', rfl, h1, h2⟩ := strip_node h
    rcases h1 with - | ⟨ha, h⟩
    rcases h with - | ⟨hb, h⟩
    rcases h with - | ⟨hc, h⟩
    cases h
    obtain ⟨g1, g2, -⟩ := free_ids (.node rfl (by simp) (by simp [free_kw])) hb
    rw [checked, ids_node, h2.ids, h2.exprs]
    vis [all_checked l ha, all_checked r hc, g1, g2]
  | .let_ n ty e r, c, h => by
    rw [SEx.tree] at h
    obtain ⟨id, a, b, cs, cs', rfl, h1, h2⟩ := strip_node h
    simp only [List.append_assoc, List.cons_append, List.nil_append] at h1
    rcases h1 with - | ⟨ha, h⟩
    rcases h with - | ⟨hb, h⟩
    obtain ⟨c1, c2, rfl, h3, h4⟩ := h.split
    rcases h4 with - | ⟨hc, h⟩
    rcases h with - | ⟨hd, h⟩
    rcases h with - | ⟨he, h⟩
    rcases h with - | ⟨hf, h⟩
    cases h
    obtain ⟨a1, a2, -⟩ := free_ids (free_kw _) ha
    obtain ⟨b1, b2, -⟩ := free_ids (free_nm _) hb
    obtain ⟨c1, c2, -⟩ := free_ids (free_kw _) hc
    obtain ⟨d1, d2, -⟩ := free_ids (free_kw _) he
    obtain ⟨e1, e2, -⟩ := frees_ids (free_ann ty) h3
    rw [checked, ids_node, h2.ids, h2.exprs]
    vis [all_checked e hd, all_checked r hf, a1, a2, b1, b2, c1, c2, d1, d2, e1, e2]
  | .match_ d ks, c, h => by
    rw [SEx.tree] at h
    obtain ⟨id, a, b, cs, cs', rfl, h1, h2⟩ := strip_node h
    simp only [List.append_assoc, List.cons_append, List.nil_append] at h1
    rcases h1 with - | ⟨ha, h⟩
    rcases h with - | ⟨hb, h⟩
    rcases h with - | ⟨hc, h⟩
    obtain ⟨c1, c2, rfl, h3, h4⟩ := h.split
    rcases h4 with - | ⟨hd, h⟩
    cases h
    obtain ⟨a1, a2, a3⟩ := free_ids (free_kw _) ha
    obtain ⟨b1, b2, b3⟩ := free_ids (free_kw _) hc
    obtain ⟨c1, c2, c3⟩ := free_ids (free_kw _) hd
    obtain ⟨d1, d2⟩ := all_cases ks h3
    have e1 := all_checked d hb
    rw [checked, ids_node, h2.ids, h2.exprs, h2.cases]
    vis [e1, not_case e1, a1, a2, a3, b1, b2, b3, c1, c2, c3, d1, d2]
  | .if_ x y z, c, h => by
    rw [SEx.tree] at h
    obtain ⟨id, a, b, cs, cs', rfl, h1, h2⟩ := strip_node h
    rcases h1 with - | ⟨ha, h⟩
    rcases h with - | ⟨hb, h⟩
    rcases h with - | ⟨hc, h⟩
    rcases h with - | ⟨hd, h⟩
    rcases h with - | ⟨he, h⟩
    rcases h with - | ⟨hf, h⟩
    cases h
    obtain ⟨a1, a2, -⟩ := free_ids (free_kw _) ha
    obtain ⟨b1, b2, -⟩ := free_ids (free_kw _) hc
    obtain ⟨c1, c2, -⟩ := free_ids (free_kw _) he
    rw [checked, ids_node, h2.ids, h2.exprs]
    vis [all_checked x hb, all_checked y hd, all_checked z hf, a1, a2, b1, b2, c1, c2]
  | .true_, c, h => by
    rw [SEx.tree] at h
    obtain ⟨id, a, b, cs, cs', rfl, h1, h2⟩ := strip_node h
    obtain ⟨g1, -, -⟩ := frees_ids (by simp [free_kw]) h1
    rw [checked, ids_node, h2.ids, g1]; simp [isExpr]
  | .false_, c, h => by
    rw [SEx.tree] at h
    obtain ⟨id, a, b, cs, cs', rfl, h1, h2⟩ := strip_node h
    obtain ⟨g1, -, -⟩ := frees_ids (by simp [free_kw]) h1
    rw [checked, ids_node, h2.ids, g1]; simp [isExpr]
  | .number t, c, h => by
    rw [SEx.tree] at h
    obtain ⟨id, a, b, cs, cs', rfl, h1, h2⟩ := strip_node h
    obtain ⟨g1, -, -⟩ := frees_ids (by simp; exact .tok) h1
    rw [checked, ids_node, h2.ids, g1]; simp [isExpr]
  | .string t, c, h => by
    rw [SEx.tree] at h
    obtain ⟨id, a, b, cs, cs', rfl, h1, h2⟩ := strip_node h
    obtain ⟨g1, -, -⟩ := frees_ids (by simp; exact .tok) h1
    rw [checked, ids_node, h2.ids, g1]; simp [isExpr]
  | .lambda fold n e, c, h => by
    rw [SEx.tree] at h
    obtain ⟨id, a, b, cs, cs', rfl, h1, h2⟩ := strip_node h
    simp only [List.append_assoc, List.cons_append, List.nil_append] at h1
    rcases h1 with - | ⟨ha, h⟩
    obtain ⟨c1, c2, rfl, h3, h4⟩ := h.split
    rcases h4 with - | ⟨hc, h⟩
    rcases h with - | ⟨hd, h⟩
    rcases h with - | ⟨he, h⟩
    cases h
    obtain ⟨a1, a2, -⟩ := free_ids (free_kw _) ha
    obtain ⟨b1, b2, -⟩ := free_ids (free_nm _) hc
    obtain ⟨c1, c2, -⟩ := free_ids (free_kw _) hd
    obtain ⟨d1, d2, -⟩ := frees_ids (free_opt _ _) h3
    rw [checked, ids_node, h2.ids, h2.exprs]
    vis [all_checked e he, a1, a2, b1, b2, c1, c2, d1, d2]
  | .paren e, c, h => by
    rw [SEx.tree] at h
    obtain ⟨id, a, b, cs, cs', rfl, h1, h2⟩ := strip_node h
    rcases h1 with - | ⟨ha, h⟩
    rcases h with - | ⟨hb, h⟩
    rcases h with - | ⟨hc, h⟩
    cases h
    obtain ⟨a1, a2, -⟩ := free_ids (free_kw _) ha
    obtain ⟨b1, b2, -⟩ := free_ids (free_kw _) hc
    rw [checked, ids_node, h2.ids, h2.exprs]
    vis [all_checked e hb, a1, a2, b1, b2]
  | .hole t, c, h => by
    rw [SEx.tree] at h
    obtain ⟨id, a, b, cs, cs', rfl, h1, h2⟩ := strip_node h
    obtain ⟨g1, -, -⟩ := frees_ids (by simp; exact .tok) h1
    rw [checked, ids_node, h2.ids, g1]; simp [isExpr]
theorem all_cases {s} : ∀ (ks : List SCase) {cs}, Labs s cs (caseTrees ks) → (checkedCases s cs).flatten = exprIdsIn cs ∧ checkeds s cs = []
  | [], _, h => by rw [caseTrees] at h; cases h; simp [checkedCases, checkeds, ids_nil]
  | .mk ns k vars e :: ks, _, h => by
    rw [caseTrees] at h
    rcases h with - | ⟨h, h'⟩
    have ih := all_cases ks h'
    have h0 := h
    rw [SCase.tree] at h
    obtain ⟨id, a, b, cs, cs', rfl, h1, h2⟩ := strip_node h
    have hn := case_named h0
    simp only [List.append_assoc, List.cons_append, List.nil_append] at h1
    rcases h1 with - | ⟨ha, h⟩
    obtain ⟨c1, c2, rfl, h3, h4⟩ := h.split
    rcases h4 with - | ⟨hc, h⟩
    rcases h with - | ⟨hd, h⟩
    rcases h with - | ⟨he, h⟩
    cases h
    obtain ⟨a1, a2, -⟩ := free_ids (free_kw _) ha
    obtain ⟨b1, b2, -⟩ := free_ids (.node (by rfl) (by simp) (by simp [free_nm])) hc
    obtain ⟨c1, c2, -⟩ := free_ids (free_kw _) hd
    obtain ⟨d1, d2, -⟩ := frees_ids (free_path _ _) h3
    have hk : checkedCase s (.node id .matchCase a b cs) = some (exprIds (.node id .matchCase a b cs)) := by
      rw [checkedCase, ids_node, h2.ids, h2.exprs, if_pos hn]
      vis [all_checked e he, a1, a2, b1, b2, c1, c2, d1, d2]
    have hx : checked s (.node id .matchCase a b cs) = none := by simp [checked]
    vis [hk, hx, ih.1, ih.2]
end

/-! ### Items -/

theorem free_comma : ∀ (ns : List Text) b, ∀ c ∈ commaT ns b, Free c
  | [], b => by rw [commaT]; exact free_opt _ _
  | [n], b => by
    intro c hc
    rw [commaT, List.mem_cons] at hc
    rcases hc with rfl | hc
    · exact free_nm _
    · exact free_opt _ _ c hc
  | n :: m :: ns, b => by
    intro c hc
    rw [commaT, List.mem_cons, List.mem_cons] at hc
    rcases hc with rfl | rfl | hc
    · exact free_nm _
    · exact free_kw _
    · exact free_comma (m :: ns) b c hc

theorem free_ctor (c : SCtor) (bar) : Free (c.tree bar) := by
  unfold SCtor.tree
  refine .node rfl (by simp) fun t ht => ?_
  simp only [List.mem_append, List.mem_cons, List.mem_map] at ht
  rcases ht with ht | rfl | ⟨f, -, rfl⟩
  · exact free_opt _ _ _ ht
  · exact free_nm _
  · cases f with
    | rec_ => exact .node rfl (by simp) (by simp [free_kw])
    | type t => exact .node rfl (by simp) (by simp [free_ty])

theorem all_item {s} (i : SItem) {c} (h : label s c = [i.tree]) : checkedItem s c = some (exprIds c) := by
  cases i with
  | import_ n l b p =>
    rw [SItem.tree] at h
    have hf : Free (SItem.tree (.import_ n l b p)) := by
      rw [SItem.tree]
      refine .node rfl (by simp) fun c hc => ?_
      simp only [List.mem_append, List.mem_map, List.mem_cons, List.not_mem_nil, or_false, Option.mem_toList, Option.map_eq_some_iff] at hc
      rcases hc with ((rfl | ⟨n, -, rfl⟩) | ⟨ns, -, rfl⟩) | rfl | rfl | rfl
      · exact free_kw _
      · exact free_nm _
      · refine .node rfl (by simp) fun c hc => ?_
        simp only [List.mem_append, List.mem_cons, List.not_mem_nil, or_false] at hc
        rcases hc with (rfl | hc) | rfl
        · exact free_kw _
        · exact free_comma _ _ c hc
        · exact free_kw _
      · exact free_kw _
      · exact .tok
      · exact free_kw _
    have := free_ids (s := s) hf (c := c) (by rw [SItem.tree]; exact h)
    obtain ⟨id, a, b, cs, cs', rfl, h1, h2⟩ := strip_node h
    rw [this.1, checkedItem]
  | value x n ty e =>
    rw [SItem.tree] at h
    obtain ⟨id, a, b, cs, cs', rfl, h1, h2⟩ := strip_node h
    simp only [List.append_assoc, List.cons_append, List.nil_append] at h1
    obtain ⟨c1, c2, rfl, h3, h4⟩ := h1.split
    rcases h4 with - | ⟨ha, h⟩
    rcases h with - | ⟨hb, h⟩
    obtain ⟨c3, c4, rfl, h5, h6⟩ := h.split
    rcases h6 with - | ⟨hc, h⟩
    rcases h with - | ⟨hd, h⟩
    rcases h with - | ⟨he, h⟩
    cases h
    obtain ⟨a1, a2, -⟩ := free_ids (free_kw _) ha
    obtain ⟨b1, b2, -⟩ := free_ids (free_nm _) hb
    obtain ⟨c1, c2, -⟩ := free_ids (free_kw _) hc
    obtain ⟨d1, d2, -⟩ := free_ids (free_kw _) he
    obtain ⟨e1, e2, -⟩ := frees_ids (free_opt _ _) h3
    obtain ⟨f1, f2, -⟩ := frees_ids (free_ann _) h5
    rw [checkedItem, ids_node, h2.ids, h2.exprs]
    vis [all_checked e hd, a1, a2, b1, b2, c1, c2, d1, d2, e1, e2, f1, f2]
  | type x n ps xc bar c0 cs0 =>
    have hf : Free (SItem.tree (.type x n ps xc bar c0 cs0)) := by
      rw [SItem.tree]
      refine .node rfl (by simp) fun c hc => ?_
      simp only [List.mem_append, List.mem_map, List.mem_cons, List.not_mem_nil, or_false] at hc
      rcases hc with ((((((hc | rfl | rfl) | hc) | rfl) | hc) | rfl) | ⟨k, -, rfl⟩) | rfl
      · exact free_opt _ _ _ hc
      · exact free_kw _
      · exact free_nm _
      · split at hc
        · simp at hc
        · rw [List.mem_singleton] at hc
          subst hc
          exact .node rfl (by simp) (by simp [free_nm])
      · exact free_kw _
      · exact free_opt _ _ _ hc
      · exact free_ctor _ _
      · exact free_ctor _ _
      · exact free_kw _
    have := free_ids (s := s) hf h
    rw [SItem.tree] at h
    obtain ⟨id, a, b, cs, cs', rfl, h1, h2⟩ := strip_node h
    rw [this.1, checkedItem]

open Tic.Grammar in
/-- The root of a tree read without errors. -/
theorem root_kind {toks start root} (h1 : parseOneItem toks start = some (root, [])) : ∃ ts, erase root = [.node .root ts] := by
  obtain ⟨s1, s2, eatAll, s3, events, e1, e2, e3, e4, e5, e6⟩ := parseOneItem_run h1
  have ev1 : s1.events = [] := e2.2
  have fin : ∀ ts, Emits s1 s2 ts → erase root = [.node .root ts] := by
    rintro ts ⟨D, d1, d2⟩
    rw [ev1] at d1 d2
    simp only [List.nil_append, List.length_nil] at d1 d2
    have := Forest.reorder d2
    rw [← d1, ← e4.2, e5] at this
    cases this
    exact (eventsToNode_erase e6).1
  by_cases hx : (kindsOf toks).head?.isNone = true
  · rw [if_pos hx] at e3
    subst e3
    exact ⟨_, fin [] (.refl _)⟩
  · rw [if_neg hx] at e3
    have clean : Clean s2 := by
      refine ⟨fun i a b hi => ?_⟩
      rw [← e4.2] at hi
      exact eventsToNode_err e6 (reorder_err e5 hi) rfl
    obtain ⟨t, ht, g⟩ := back_item.run _ _ e3 clean
    exact ⟨_, fin [t] g.emits⟩

/-- The expressions of a tree that was read without errors are exactly those that have a type. -/
theorem typed_all (toks : List Tok) (start : Nat) {root} (h : parseOneItem toks start = some (root, [])) : typed ⟨start, textOf toks⟩ root = exprIds root := by
  obtain ⟨root', errs, cs, left, h1, h2, h3, -, -, h6⟩ := Grammar.parse_one toks start
  rw [h] at h1
  simp only [Option.some.injEq, Prod.mk.injEq] at h1
  obtain ⟨rfl, rfl⟩ := h1
  obtain ⟨ts, hr⟩ := root_kind h
  rcases h6 rfl with ⟨a, b⟩ | ⟨t, ht, g1, g2⟩
  · have : ts = [] := by
      unfold Grammar.trees at b
      rw [hr] at b
      exact b
    subst this
    cases root with
    | node id k a b ds =>
      simp only [Grammar.erase, List.cons.injEq, Grammar.Syn.node.injEq, and_true] at hr
      obtain ⟨rfl, hd⟩ := hr
      have hl : label.go ⟨start, textOf toks⟩ ds = [] := by
        have h1 := shape_label_go ⟨start, textOf toks⟩ ds
        rw [hd] at h1
        cases e : label.go ⟨start, textOf toks⟩ ds with
        | nil => rfl
        | cons t ts => rw [e] at h1; simp [TSyn.shape.go] at h1
      obtain ⟨ds', m1, m2⟩ := strip ⟨start, textOf toks⟩ ds
      rw [hl] at m1
      cases m1
      rw [typed, m2.items, ids_node, m2.ids]
      rfl
    | token => simp [Grammar.erase] at hr
    | trivia => simp [Grammar.erase] at hr
  · obtain ⟨id, k, a, b, ds, t', rfl, k1, k2, k3, k4⟩ := root_label (left := left) g1 h3
    obtain ⟨i, rfl⟩ := back_item ht k2 k4
    rw [h2]
    obtain ⟨ds', m1, m2⟩ := strip ⟨start, textOf (cs ++ left)⟩ ds
    rw [k1] at m1
    rcases m1 with - | ⟨m1, m3⟩
    cases m3
    rw [typed, m2.items, ids_node, m2.ids]
    have hk : k = .root := by
      simp only [Grammar.erase, List.cons.injEq, Grammar.Syn.node.injEq, and_true] at hr
      exact hr.1
    subst hk
    vis [all_item i m1]

end Tic.Hover
