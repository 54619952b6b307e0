/-
The accessors of the tree of a program show the program.
-/
import Verif.LowerLabel

namespace Tic.Lower

open Tic.Parser
open Tic.Grammar (Syn)

section
variable (s : Source) (c : Elem) (cs : List Elem)
theorem fm_cons {α : Type} (f : Elem → Option α) : (c :: cs).filterMap f = (f c).toList ++ cs.filterMap f := by
  rw [List.filterMap_cons]; cases f c <;> rfl
theorem tokensIn_cons : tokensIn s (c :: cs) = (tokenOf s c).toList ++ tokensIn s cs := fm_cons ..
theorem names_cons : names s (c :: cs) = (nameOf s c).toList ++ names s cs := fm_cons ..
theorem ops_cons : ops s (c :: cs) = (opOf s c).toList ++ ops s cs := fm_cons ..
theorem vars_cons : varLists s (c :: cs) = (varsOf s c).toList ++ varLists s cs := fm_cons ..
theorem params_cons : paramLists s (c :: cs) = (paramsOf s c).toList ++ paramLists s cs := fm_cons ..
theorem exposed_cons : exposedLists s (c :: cs) = (exposedOf s c).toList ++ exposedLists s cs := fm_cons ..
theorem tok_node (id k a b) : tokenOf s (.node id k a b cs) = none := rfl
theorem tok_token (k sp) : tokenOf s (.token k sp) = some (k, s.slice sp) := rfl
theorem tokensIn_nil : tokensIn s [] = [] := rfl
theorem names_nil : names s [] = [] := rfl
theorem ops_nil : ops s [] = [] := rfl
theorem vars_nil : varLists s [] = [] := rfl
theorem params_nil : paramLists s [] = [] := rfl
theorem exposed_nil : exposedLists s [] = [] := rfl
theorem tokensIn_app (b) : tokensIn s (cs ++ b) = tokensIn s cs ++ tokensIn s b := by simp [tokensIn]
theorem names_app (b) : names s (cs ++ b) = names s cs ++ names s b := by simp [names]
theorem ops_app (b) : ops s (cs ++ b) = ops s cs ++ ops s b := by simp [ops]
theorem vars_app (b) : varLists s (cs ++ b) = varLists s cs ++ varLists s b := by simp [varLists]
theorem params_app (b) : paramLists s (cs ++ b) = paramLists s cs ++ paramLists s b := by simp [paramLists]
theorem exposed_app (b) : exposedLists s (cs ++ b) = exposedLists s cs ++ exposedLists s b := by simp [exposedLists]
end

theorem tys_append (s) (a b : List Elem) : tys s (a ++ b) = tys s a ++ tys s b := by
  induction a with
  | nil => simp [tys]
  | cons c a ih => simp [tys, ih]

theorem exprs_append (s) (a b : List Elem) : exprs s (a ++ b) = exprs s a ++ exprs s b := by
  induction a with
  | nil => simp [exprs]
  | cons c a ih => simp [exprs, ih]

theorem cases_append (s) (a b : List Elem) : cases s (a ++ b) = cases s a ++ cases s b := by
  induction a with
  | nil => simp [cases]
  | cons c a ih => simp [cases, ih]

/-! ### Trivia do not matter -/

/-- Children for which every accessor gives the same. -/
structure SameAcc (s : Source) (a b : List Elem) : Prop where
  tokens : tokensIn s a = tokensIn s b
  names : names s a = names s b
  tys : tys s a = tys s b
  exprs : exprs s a = exprs s b
  cases : cases s a = cases s b
  ops : ops s a = ops s b
  vars : varLists s a = varLists s b
  params : paramLists s a = paramLists s b
  exposed : exposedLists s a = exposedLists s b
  fields : a.filterMap (fieldOf s) = b.filterMap (fieldOf s)
  ctors : a.filterMap (ctorOf s) = b.filterMap (ctorOf s)
  items : a.filterMap (itemOf s) = b.filterMap (itemOf s)

/-- Each child carries one of the trees. -/
abbrev Labs (s : Source) : List Elem → List TSyn → Prop := Each fun c t => label s c = [t]

theorem Each.append {α β : Type} {R : α → β → Prop} {as bs as' bs'} (h : Each R as bs) (h' : Each R as' bs') : Each R (as ++ as') (bs ++ bs') := by
  induction h with
  | nil => exact h'
  | cons h _ ih => exact .cons h ih

theorem Each.split {α β : Type} {R : α → β → Prop} : ∀ {bs bs' : List β} {as}, Each R as (bs ++ bs') → ∃ a a', as = a ++ a' ∧ Each R a bs ∧ Each R a' bs'
  | [], _, as, h => ⟨[], as, rfl, .nil, h⟩
  | b :: bs, _, _, .cons h h' => by
    obtain ⟨a, a', e, h1, h2⟩ := Each.split h'
    exact ⟨_ :: a, a', by rw [e]; rfl, .cons h h1, h2⟩

/-- Taking the trivia out. -/
theorem bare (s) : ∀ cs : List Elem, ∃ cs', Labs s cs' (label.go s cs) ∧ SameAcc s cs cs'
  | [] => ⟨[], .nil, by constructor <;> rfl⟩
  | .trivia k sp :: cs => by
    obtain ⟨cs', h1, h2⟩ := bare s cs
    refine ⟨cs', by simpa [label.go, label] using h1, ?_⟩
    exact ⟨h2.1, h2.2, by rw [tys, h2.3]; simp [tyOf], by rw [exprs, h2.4]; simp [exprOf], by rw [cases, h2.5]; simp [caseOf], h2.6, h2.7, h2.8, h2.9, h2.10, h2.11,
      by rw [fm_cons, h2.12]; simp [itemOf]⟩
  | .token k sp :: cs => by
    obtain ⟨cs', h1, h2⟩ := bare s cs
    refine ⟨.token k sp :: cs', by rw [label.go, label]; exact .cons (by rw [label]) h1, ?_⟩
    exact ⟨by rw [tokensIn_cons, tokensIn_cons, h2.1], by rw [names_cons, names_cons, h2.2], by rw [tys, tys, h2.3], by rw [exprs, exprs, h2.4], by rw [cases, cases, h2.5],
      by rw [ops_cons, ops_cons, h2.6], by rw [vars_cons, vars_cons, h2.7], by rw [params_cons, params_cons, h2.8], by rw [exposed_cons, exposed_cons, h2.9],
      by rw [fm_cons, fm_cons, h2.10], by rw [fm_cons, fm_cons, h2.11], by rw [fm_cons, fm_cons, h2.12]⟩
  | .node id k a b ds :: cs => by
    obtain ⟨cs', h1, h2⟩ := bare s cs
    refine ⟨.node id k a b ds :: cs', by rw [label.go, label]; exact .cons (by rw [label]) h1, ?_⟩
    exact ⟨by rw [tokensIn_cons, tokensIn_cons, h2.1], by rw [names_cons, names_cons, h2.2], by rw [tys, tys, h2.3], by rw [exprs, exprs, h2.4], by rw [cases, cases, h2.5],
      by rw [ops_cons, ops_cons, h2.6], by rw [vars_cons, vars_cons, h2.7], by rw [params_cons, params_cons, h2.8], by rw [exposed_cons, exposed_cons, h2.9],
      by rw [fm_cons, fm_cons, h2.10], by rw [fm_cons, fm_cons, h2.11], by rw [fm_cons, fm_cons, h2.12]⟩

/-! ### Single children -/

theorem lab_tok {s c k t} (h : label s c = [.tok k t]) : ∃ sp, c = .token k sp ∧ t = if carries k then some (s.slice sp) else none := by
  cases c with
  | token k' sp =>
    simp only [label, List.cons.injEq, TSyn.tok.injEq, and_true] at h
    obtain ⟨rfl, h⟩ := h
    exact ⟨sp, rfl, h.symm⟩
  | trivia => simp [label] at h
  | node => simp [label] at h

theorem lab_node {s c k ts} (h : label s c = [.node k ts]) : ∃ id a b cs cs', c = .node id k a b cs ∧ Labs s cs' ts ∧ SameAcc s cs cs' := by
  cases c with
  | token k' sp => simp [label] at h
  | trivia => simp [label] at h
  | node id k' a b cs =>
    simp only [label, List.cons.injEq, TSyn.node.injEq, and_true] at h
    obtain ⟨rfl, h⟩ := h
    obtain ⟨cs', h1, h2⟩ := bare s cs
    exact ⟨id, a, b, cs, cs', rfl, h ▸ h1, h2⟩

/-- What a child is not. -/
structure Only (s : Source) (c : Elem) : Prop where
  tok : tokenOf s c = none
  name : nameOf s c = none
  op : opOf s c = none
  vars : varsOf s c = none
  params : paramsOf s c = none
  exposed : exposedOf s c = none
  field : fieldOf s c = none
  ctor : ctorOf s c = none
  case : caseOf s c = none

theorem ty_only {s c u} (h : tyOf s c = some u) : Only s c ∧ exprOf s c = none := by
  cases c with
  | token => simp [tyOf] at h
  | trivia => simp [tyOf] at h
  | node id k a b cs =>
    cases k <;> simp [tyOf] at h <;> exact ⟨by constructor <;> simp [tokenOf, nameOf, opOf, varsOf, paramsOf, exposedOf, fieldOf, ctorOf, caseOf], by simp [exprOf]⟩

theorem ex_only {s c u} (h : exprOf s c = some u) : Only s c ∧ tyOf s c = none := by
  cases c with
  | token => simp [exprOf] at h
  | trivia => simp [exprOf] at h
  | node id k a b cs =>
    cases k <;> simp [exprOf] at h <;> exact ⟨by constructor <;> simp [tokenOf, nameOf, opOf, varsOf, paramsOf, exposedOf, fieldOf, ctorOf, caseOf], by simp [tyOf]⟩

theorem tok_name (s k sp) : nameOf s (.token k sp) = none := rfl
theorem tok_ty (s k sp) : tyOf s (.token k sp) = none := by simp [tyOf]
theorem tok_ex (s k sp) : exprOf s (.token k sp) = none := by simp [exprOf]
theorem tok_case (s k sp) : caseOf s (.token k sp) = none := by simp [caseOf]
theorem tok_op (s k sp) : opOf s (.token k sp) = none := rfl
theorem tok_vars (s k sp) : varsOf s (.token k sp) = none := rfl
theorem tok_params (s k sp) : paramsOf s (.token k sp) = none := rfl
theorem tok_exposed (s k sp) : exposedOf s (.token k sp) = none := rfl
theorem tok_field (s k sp) : fieldOf s (.token k sp) = none := rfl
theorem tok_ctor (s k sp) : ctorOf s (.token k sp) = none := rfl

/-- Evaluating the accessors. -/
macro "acc" "[" ls:term,* "]" : tactic => do
  let ls := ls.getElems
  `(tactic| simp [tokensIn_cons, names_cons, ops_cons, vars_cons, params_cons, exposed_cons, tokensIn_nil, names_nil, ops_nil, vars_nil, params_nil, exposed_nil,
    tokensIn_app, names_app, ops_app, vars_app, params_app, exposed_app, tys_append, exprs_append, cases_append, tys, exprs, cases, tok_node, tok_token,
    tok_name, tok_ty, tok_ex, tok_case, tok_op, tok_vars, tok_params, tok_exposed, tok_field, tok_ctor, firstToken, childToken, $[$ls:term],*])

/-- A name. -/
structure IsName (s : Source) (c : Elem) (v : VName) (t : Text) : Prop where
  name : nameOf s c = some v
  shows : ShowsName v t
  tok : tokenOf s c = none
  ty : tyOf s c = none
  ex : exprOf s c = none
  op : opOf s c = none
  vars : varsOf s c = none
  params : paramsOf s c = none
  exposed : exposedOf s c = none
  field : fieldOf s c = none
  ctor : ctorOf s c = none
  case : caseOf s c = none

theorem show_name {s c t} (h : label s c = [nmT t]) : ∃ v, IsName s c v t := by
  obtain ⟨id, a, b, cs, cs', rfl, h1, h2⟩ := lab_node h
  rcases h1 with - | ⟨h1, h3⟩
  cases h3
  obtain ⟨sp, rfl, ht⟩ := lab_tok h1
  simp only [carries, if_true, Option.some.injEq] at ht
  refine ⟨⟨id, firstToken s cs⟩, ⟨by simp [nameOf], ?_, ?_, ?_, ?_, ?_, ?_, ?_, ?_, ?_, ?_, ?_⟩⟩
  · acc [ShowsName, h2.tokens, ht]
  all_goals simp [tokenOf, tyOf, exprOf, opOf, varsOf, paramsOf, exposedOf, fieldOf, ctorOf, caseOf]

theorem show_names {s} : ∀ {ts : List Text} {cs}, Labs s cs (ts.map nmT) → Each ShowsName (names s cs) ts
  | [], _, .nil => .nil
  | t :: ts, _, .cons h h' => by
    obtain ⟨v, hv⟩ := show_name h
    rw [names_cons, hv.name]
    exact .cons hv.shows (show_names h')

/-- A path followed by children that are neither names nor dots. -/
theorem show_path {s ns n cs rest} (h : Labs s cs (pathT ns n)) (h1 : names s rest = []) (h2 : (tokensIn s rest).find? (fun t => t.1 == .dot) = none) :
    (∃ u v, namespaceIn s (cs ++ rest) = u ∧ nameIn s (cs ++ rest) = v ∧ ShowsPath u v ns n) ∧ tys s (cs ++ rest) = tys s rest ∧ exprs s (cs ++ rest) = exprs s rest ∧
      varLists s (cs ++ rest) = varLists s rest := by
  cases ns with
  | none =>
    rcases h with - | ⟨h, h'⟩
    cases h'
    obtain ⟨v, hv⟩ := show_name h
    have hd : ∀ c, tokenOf s c = none → childToken s ([c] ++ rest) .dot = none := by
      intro c hc
      simp only [childToken, tokensIn_app, tokensIn_cons, tokensIn_nil, hc, Option.toList, List.nil_append, h2, Option.map_none]
    refine ⟨⟨none, some v, ?_, ?_, .plain hv.shows⟩, ?_, ?_, ?_⟩
    · rw [namespaceIn, hd _ hv.tok]; rfl
    · rw [nameIn, hd _ hv.tok]
      acc [hv.name, h1]
    · acc [hv.ty]
    · acc [hv.ex]
    · acc [hv.vars]
  | some m =>
    rcases h with - | ⟨ha, h⟩
    rcases h with - | ⟨hb, h⟩
    rcases h with - | ⟨hc, h⟩
    cases h
    obtain ⟨u, hu⟩ := show_name ha
    obtain ⟨v, hv⟩ := show_name hc
    obtain ⟨sp, rfl, -⟩ := lab_tok hb
    refine ⟨⟨some u, some v, ?_, ?_, .inModule hu.shows hv.shows⟩, ?_, ?_, ?_⟩
    · rw [namespaceIn]; acc [hu.tok, hu.name, hv.tok, hv.name]
    · rw [nameIn]; acc [hu.tok, hu.name, hv.tok, hv.name]
    · acc [hu.ty, hv.ty]
    · acc [hu.ex, hv.ex]
    · acc [hu.vars, hv.vars]

end Tic.Lower
