/-
The accessors of the tree of a program show the program: types, expressions, items.
-/
import Verif.LowerShow

namespace Tic.Lower

open Tic.Parser

theorem path_congr {s : Source} {a b : List Elem} (h1 : childToken s a .dot = childToken s b .dot) (h2 : names s a = names s b) :
    namespaceIn s a = namespaceIn s b ∧ nameIn s a = nameIn s b := by
  unfold namespaceIn nameIn
  rw [h1, h2]
  exact ⟨rfl, rfl⟩

theorem path_after {s : Source} {cs l : List Elem} {k sp} (h : SameAcc s cs (.token k sp :: l)) (hk : k ≠ .dot) :
    namespaceIn s cs = namespaceIn s l ∧ nameIn s cs = nameIn s l :=
  path_congr (by rw [childToken, childToken, h.tokens, tokensIn_cons]; simp [tok_token, hk]) (by rw [h.names, names_cons]; simp [tok_name])

mutual
theorem show_ty {s} : ∀ (t : STy) {c}, label s c = [t.tree] → ∃ u, tyOf s c = some u ∧ ShowsTy u t
  | .int, c, h => by
    rw [STy.tree] at h
    obtain ⟨id, a, b, cs, cs', rfl, -, -⟩ := lab_node h
    exact ⟨.int, by rw [tyOf], .int⟩
  | .bool, c, h => by
    rw [STy.tree] at h
    obtain ⟨id, a, b, cs, cs', rfl, -, -⟩ := lab_node h
    exact ⟨.bool, by rw [tyOf], .bool⟩
  | .string, c, h => by
    rw [STy.tree] at h
    obtain ⟨id, a, b, cs, cs', rfl, -, -⟩ := lab_node h
    exact ⟨.string, by rw [tyOf], .string⟩
  | .named ns n args, c, h => by
    rw [STy.tree] at h
    obtain ⟨id, a, b, cs, cs', rfl, h1, h2⟩ := lab_node h
    obtain ⟨c1, c2, rfl, h3, h4⟩ := h1.split
    obtain ⟨g1, g2, g3⟩ := show_tys args h4
    obtain ⟨⟨u, v, e1, e2, e3⟩, e4, -, -⟩ := show_path h3 g2 (by rw [g3]; rfl)
    refine ⟨.named u v (tys s cs), ?_, .named e3 (by rw [h2.tys, e4]; exact g1)⟩
    obtain ⟨q1, q2⟩ := path_congr (s := s) (a := cs) (b := c1 ++ c2) (by rw [childToken, childToken, h2.tokens]) h2.names
    rw [tyOf, q1, q2, e1, e2]
  | .paren t, c, h => by
    rw [STy.tree] at h
    obtain ⟨id, a, b, cs, cs', rfl, h1, h2⟩ := lab_node h
    rcases h1 with - | ⟨ha, h⟩
    rcases h with - | ⟨hb, h⟩
    rcases h with - | ⟨hc, h⟩
    cases h
    obtain ⟨u, e1, e2⟩ := show_ty t hb
    obtain ⟨_, rfl, -⟩ := lab_tok ha
    obtain ⟨_, rfl, -⟩ := lab_tok hc
    exact ⟨_, by rw [tyOf, h2.tys]; acc [e1] <;> rfl, .paren e2⟩
  | .fn t t', c, h => by
    rw [STy.tree] at h
    obtain ⟨id, a, b, cs, cs', rfl, h1, h2⟩ := lab_node h
    rcases h1 with - | ⟨ha, h⟩
    rcases h with - | ⟨hb, h⟩
    rcases h with - | ⟨hc, h⟩
    cases h
    obtain ⟨u, e1, e2⟩ := show_ty t ha
    obtain ⟨v, e3, e4⟩ := show_ty t' hc
    obtain ⟨_, rfl, -⟩ := lab_tok hb
    exact ⟨_, by rw [tyOf, h2.tys]; acc [e1, e3] <;> rfl, .fn e2 e4⟩
theorem show_tys {s} : ∀ (ts : List STy) {cs}, Labs s cs (STy.tree.trees ts) → Each ShowsTy (tys s cs) ts ∧ names s cs = [] ∧ tokensIn s cs = []
  | [], _, h => by rw [STy.tree.trees] at h; cases h; exact ⟨by rw [tys]; exact .nil, rfl, rfl⟩
  | t :: ts, _, h => by
    rw [STy.tree.trees] at h
    rcases h with - | ⟨h, h'⟩
    obtain ⟨u, e1, e2⟩ := show_ty t h
    obtain ⟨g1, g2, g3⟩ := show_tys ts h'
    have o := (ty_only e1).1
    exact ⟨by rw [tys, e1]; exact .cons e2 g1, by rw [names_cons, o.name, g2] <;> rfl, by rw [tokensIn_cons, o.tok, g3]; rfl⟩
end

/-- An annotation, or nothing. -/
theorem show_ann {s} (t : Option STy) {cs} (h : Labs s cs (annT t)) : (∃ u, ShowsAnn u t ∧ tys s cs = u.toList) ∧ names s cs = [] ∧ exprs s cs = [] ∧
    (∀ p ∈ tokensIn s cs, p.1 = .colon) := by
  cases t with
  | none => cases h; exact ⟨⟨none, .none, by rw [tys]; rfl⟩, rfl, by rw [exprs], by simp [tokensIn_nil]⟩
  | some t =>
    rcases h with - | ⟨ha, h⟩
    rcases h with - | ⟨hb, h⟩
    cases h
    obtain ⟨_, rfl, -⟩ := lab_tok ha
    obtain ⟨u, e1, e2⟩ := show_ty t hb
    have o := ty_only e1
    exact ⟨⟨some u, .some e2, by acc [e1]⟩, by acc [o.1.name], by acc [o.2], by acc [o.1.tok]⟩

/-- A token that may be there. -/
theorem lab_opt {s b k cs} (h : Labs s cs (optT b k)) : (b = true ∧ ∃ sp, cs = [.token k sp]) ∨ (b = false ∧ cs = []) := by
  cases b with
  | false => cases h; exact .inr ⟨rfl, rfl⟩
  | true =>
    rcases h with - | ⟨ha, h⟩
    cases h
    obtain ⟨sp, rfl, -⟩ := lab_tok ha
    exact .inl ⟨rfl, sp, rfl⟩

mutual
theorem show_ex {s} : ∀ (e : SEx) {c}, label s c = [e.tree] → ∃ v, exprOf s c = some v ∧ ShowsEx v e
  | .name n, c, h => by
    rw [SEx.tree] at h
    obtain ⟨id, a, b, cs, cs', rfl, h1, h2⟩ := lab_node h
    rcases h1 with - | ⟨ha, h⟩
    cases h
    obtain ⟨v, hv⟩ := show_name ha
    exact ⟨_, by rw [exprOf, h2.names]; acc [hv.name] <;> rfl, .name hv.shows⟩
  | .inModule m n, c, h => by
    rw [SEx.tree] at h
    obtain ⟨id, a, b, cs, cs', rfl, h1, h2⟩ := lab_node h
    rcases h1 with - | ⟨ha, h⟩
    rcases h with - | ⟨hb, h⟩
    rcases h with - | ⟨hc, h⟩
    cases h
    obtain ⟨u, hu⟩ := show_name ha
    obtain ⟨v, hv⟩ := show_name hc
    obtain ⟨_, rfl, -⟩ := lab_tok hb
    exact ⟨_, by rw [exprOf, h2.names]; acc [hu.name, hv.name] <;> rfl, .inModule hu.shows hv.shows⟩
  | .apply f x, c, h => by
    rw [SEx.tree] at h
    obtain ⟨id, a, b, cs, cs', rfl, h1, h2⟩ := lab_node h
    rcases h1 with - | ⟨ha, h⟩
    rcases h with - | ⟨hb, h⟩
    cases h
    obtain ⟨u, e1, e2⟩ := show_ex f ha
    obtain ⟨v, e3, e4⟩ := show_ex x hb
    exact ⟨_, by rw [exprOf, h2.exprs]; acc [e1, e3] <;> rfl, .apply e2 e4⟩
  | .binary o l r, c, h => by
    rw [SEx.tree] at h
    obtain ⟨id, a, b, cs, cs', rfl, h1, h2⟩ := lab_node h
    rcases h1 with - | ⟨ha, h⟩
    rcases h with - | ⟨hb, h⟩
    rcases h with - | ⟨hc, h⟩
    cases h
    obtain ⟨u, e1, e2⟩ := show_ex l ha
    obtain ⟨v, e3, e4⟩ := show_ex r hc
    obtain ⟨_, _, _, ds, ds', rfl, h3, h4⟩ := lab_node hb
    rcases h3 with - | ⟨hd, h⟩
    cases h
    obtain ⟨sp, rfl, -⟩ := lab_tok hd
    have o1 := (ex_only e1).1
    refine ⟨.binary (some u) (some (some (o, s.slice sp))) (some v), ?_, .binary e2 e4⟩
    rw [exprOf, h2.exprs, h2.ops]
    have q1 : ∀ i a b, opOf s (.node i .binaryOp a b ds) = some (some (o, s.slice sp)) := fun _ _ _ => by rw [opOf]; acc [h4.tokens]
    have q2 : ∀ i a b, exprOf s (.node i .binaryOp a b ds) = none := fun _ _ _ => by simp [exprOf]
    acc [q1, q2, e1, e3, o1.op, (ex_only e3).1.op]
  | .let_ n ty e r, c, h => by
    rw [SEx.tree] at h
    obtain ⟨id, a, b, cs, cs', rfl, h1, h2⟩ := lab_node h
    simp only [List.append_assoc, List.cons_append, List.nil_append] at h1
    rcases h1 with - | ⟨ha, h⟩
    rcases h with - | ⟨hb, h⟩
    obtain ⟨c1, c2, rfl, h3, h4⟩ := h.split
    rcases h4 with - | ⟨hc, h⟩
    rcases h with - | ⟨hd, h⟩
    rcases h with - | ⟨he, h⟩
    rcases h with - | ⟨hf, h⟩
    cases h
    obtain ⟨_, rfl, -⟩ := lab_tok ha
    obtain ⟨_, rfl, -⟩ := lab_tok hc
    obtain ⟨_, rfl, -⟩ := lab_tok he
    obtain ⟨v, hv⟩ := show_name hb
    obtain ⟨w, e1, e2⟩ := show_ex e hd
    obtain ⟨x, e3, e4⟩ := show_ex r hf
    obtain ⟨⟨u, g0, g1⟩, g2, g3, -⟩ := show_ann ty h3
    refine ⟨.let_ (some v) u (some w) (some x), ?_, .let_ hv.shows g0 e2 e4⟩
    rw [exprOf, h2.exprs, h2.names, h2.tys]
    acc [hv.name, hv.ty, hv.ex, g1, g2, g3, e1, e3, (ex_only e1).1.name, (ex_only e3).1.name, (ex_only e1).2, (ex_only e3).2]
    cases u <;> rfl
  | .match_ d ks, c, h => by
    rw [SEx.tree] at h
    obtain ⟨id, a, b, cs, cs', rfl, h1, h2⟩ := lab_node h
    simp only [List.append_assoc, List.cons_append, List.nil_append] at h1
    rcases h1 with - | ⟨ha, h⟩
    rcases h with - | ⟨hb, h⟩
    rcases h with - | ⟨hc, h⟩
    obtain ⟨c1, c2, rfl, h3, h4⟩ := h.split
    rcases h4 with - | ⟨hd, h⟩
    cases h
    obtain ⟨_, rfl, -⟩ := lab_tok ha
    obtain ⟨_, rfl, -⟩ := lab_tok hc
    obtain ⟨_, rfl, -⟩ := lab_tok hd
    obtain ⟨v, e1, e2⟩ := show_ex d hb
    have e3 := show_cases ks h3
    refine ⟨.match_ (some v) (cases s c1), ?_, .match_ e2 e3⟩
    rw [exprOf, h2.exprs, h2.cases]
    acc [e1, (ex_only e1).1.case]
  | .if_ x y z, c, h => by
    rw [SEx.tree] at h
    obtain ⟨id, a, b, cs, cs', rfl, h1, h2⟩ := lab_node h
    rcases h1 with - | ⟨ha, h⟩
    rcases h with - | ⟨hb, h⟩
    rcases h with - | ⟨hc, h⟩
    rcases h with - | ⟨hd, h⟩
    rcases h with - | ⟨he, h⟩
    rcases h with - | ⟨hf, h⟩
    cases h
    obtain ⟨_, rfl, -⟩ := lab_tok ha
    obtain ⟨_, rfl, -⟩ := lab_tok hc
    obtain ⟨_, rfl, -⟩ := lab_tok he
    obtain ⟨u, e1, e2⟩ := show_ex x hb
    obtain ⟨v, e3, e4⟩ := show_ex y hd
    obtain ⟨w, e5, e6⟩ := show_ex z hf
    exact ⟨_, by rw [exprOf, h2.exprs]; acc [e1, e3, e5] <;> rfl, .if_ e2 e4 e6⟩
  | .true_, c, h => by
    rw [SEx.tree] at h
    obtain ⟨id, a, b, cs, cs', rfl, h1, h2⟩ := lab_node h
    rcases h1 with - | ⟨ha, h⟩
    cases h
    obtain ⟨_, rfl, -⟩ := lab_tok ha
    exact ⟨_, by rw [exprOf]; acc [h2.tokens] <;> rfl, .true_⟩
  | .false_, c, h => by
    rw [SEx.tree] at h
    obtain ⟨id, a, b, cs, cs', rfl, h1, h2⟩ := lab_node h
    rcases h1 with - | ⟨ha, h⟩
    cases h
    obtain ⟨_, rfl, -⟩ := lab_tok ha
    exact ⟨_, by rw [exprOf]; acc [h2.tokens] <;> rfl, .false_⟩
  | .number t, c, h => by
    rw [SEx.tree] at h
    obtain ⟨id, a, b, cs, cs', rfl, h1, h2⟩ := lab_node h
    rcases h1 with - | ⟨ha, h⟩
    cases h
    obtain ⟨sp, rfl, ht⟩ := lab_tok ha
    simp only [carries, if_true, Option.some.injEq] at ht
    exact ⟨_, by rw [exprOf]; acc [h2.tokens, ht.symm] <;> rfl, .number⟩
  | .string t, c, h => by
    rw [SEx.tree] at h
    obtain ⟨id, a, b, cs, cs', rfl, h1, h2⟩ := lab_node h
    rcases h1 with - | ⟨ha, h⟩
    cases h
    obtain ⟨sp, rfl, ht⟩ := lab_tok ha
    simp only [carries, if_true, Option.some.injEq] at ht
    exact ⟨_, by rw [exprOf]; acc [h2.tokens, ht.symm] <;> rfl, .string⟩
  | .lambda fold n e, c, h => by
    rw [SEx.tree] at h
    obtain ⟨id, a, b, cs, cs', rfl, h1, h2⟩ := lab_node h
    simp only [List.append_assoc, List.cons_append, List.nil_append] at h1
    rcases h1 with - | ⟨ha, h⟩
    obtain ⟨c1, c2, rfl, h3, h4⟩ := h.split
    rcases h4 with - | ⟨hc, h⟩
    rcases h with - | ⟨hd, h⟩
    rcases h with - | ⟨he, h⟩
    cases h
    obtain ⟨_, rfl, -⟩ := lab_tok ha
    obtain ⟨_, rfl, -⟩ := lab_tok hd
    obtain ⟨v, hv⟩ := show_name hc
    obtain ⟨w, e1, e2⟩ := show_ex e he
    refine ⟨.lambda fold (some v) (some w), ?_, .lambda hv.shows e2⟩
    rw [exprOf, h2.exprs, h2.names, childToken, h2.tokens]
    rcases lab_opt h3 with ⟨rfl, sp, rfl⟩ | ⟨rfl, rfl⟩ <;> acc [hv.name, hv.ex, hv.tok, e1, (ex_only e1).1.tok]
  | .paren e, c, h => by
    rw [SEx.tree] at h
    obtain ⟨id, a, b, cs, cs', rfl, h1, h2⟩ := lab_node h
    rcases h1 with - | ⟨ha, h⟩
    rcases h with - | ⟨hb, h⟩
    rcases h with - | ⟨hc, h⟩
    cases h
    obtain ⟨_, rfl, -⟩ := lab_tok ha
    obtain ⟨_, rfl, -⟩ := lab_tok hc
    obtain ⟨u, e1, e2⟩ := show_ex e hb
    exact ⟨_, by rw [exprOf, h2.exprs]; acc [e1] <;> rfl, .paren e2⟩
  | .hole t, c, h => by
    rw [SEx.tree] at h
    obtain ⟨id, a, b, cs, cs', rfl, h1, h2⟩ := lab_node h
    rcases h1 with - | ⟨ha, h⟩
    cases h
    obtain ⟨sp, rfl, ht⟩ := lab_tok ha
    simp only [carries, if_true, Option.some.injEq] at ht
    exact ⟨_, by rw [exprOf]; acc [h2.tokens, ht.symm] <;> rfl, .hole⟩
theorem show_cases {s} : ∀ (ks : List SCase) {cs}, Labs s cs (caseTrees ks) → ShowsCases (cases s cs) ks
  | [], _, h => by rw [caseTrees] at h; cases h; rw [cases]; exact .nil
  | .mk ns k vars e :: ks, _, h => by
    rw [caseTrees, SCase.tree] at h
    rcases h with - | ⟨h, h'⟩
    have ih := show_cases ks h'
    obtain ⟨id, a, b, cs, cs', rfl, h1, h2⟩ := lab_node h
    simp only [List.append_assoc, List.cons_append, List.nil_append] at h1
    rcases h1 with - | ⟨ha, h⟩
    obtain ⟨c1, c2, rfl, h3, h4⟩ := h.split
    rcases h4 with - | ⟨hc, h⟩
    rcases h with - | ⟨hd, h⟩
    rcases h with - | ⟨he, h⟩
    cases h
    rename_i x
    obtain ⟨_, rfl, -⟩ := lab_tok ha
    obtain ⟨sp2, rfl, -⟩ := lab_tok hd
    obtain ⟨i1, a1, b1, ds, ds', rfl, h5, h6⟩ := lab_node hc
    obtain ⟨w, e1, e2⟩ := show_ex e he
    have hn := show_names h5
    rw [← h6.names] at hn
    have o := (ex_only e1).1
    have v1 : ∀ i a b, varsOf s (.node i .matchVars a b ds) = some (names s ds) := fun _ _ _ => rfl
    have v2 : ∀ i a b, nameOf s (.node i .matchVars a b ds) = none := fun _ _ _ => rfl
    have v3 : ∀ i a b, exprOf s (.node i .matchVars a b ds) = none := fun _ _ _ => by simp [exprOf]
    obtain ⟨⟨u, v, p1, p2, p3⟩, p4, p5, p6⟩ := show_path h3 (rest := [.node i1 .matchVars a1 b1 ds, .token .arrow sp2, x]) (by acc [v2, o.name]) (by acc [o.tok])
    have : caseOf s (.node id .matchCase a b cs) = some (.mk u v (some (names s ds)) (some w)) := by
      obtain ⟨q1, q2⟩ := path_after h2 (by simp)
      rw [caseOf, q1, q2, p1, p2, h2.vars, h2.exprs, vars_cons, p6, exprs, p5]
      acc [v1, v3, e1, o.vars]
    rw [cases, this]
    exact .cons p3 hn e2 ih
end

end Tic.Lower
