/-
A program without syntax errors: every identifier written is a name that is read.
-/
import Verif.SpellNames
import Verif.PropLower

namespace Tic.Spell

open Tic.Parser (TokenKind)
open Tic.Units
open Tic.Lower
open Tic.Resolve (Name Ty Tys Expr Cases FieldSyntax CaseSyntax Item)

open Tic.Grammar (Syn nm)

/-- How many name nodes a tree has. -/
def nms : Syn → Nat
  | .tok _ => 0
  | .node k cs => (if k = .name then 1 else 0) + go cs
where
  go : List Syn → Nat
    | [] => 0
    | c :: cs => nms c + go cs

theorem nms_go_append : ∀ a b, nms.go (a ++ b) = nms.go a + nms.go b
  | [], b => by simp [nms.go]
  | c :: a, b => by rw [List.cons_append, nms.go, nms.go, nms_go_append a b]; omega

/-! ### In the grammar identifiers are names -/

/-- Its identifiers are its name nodes. -/
def Even (t : Syn) : Prop := t.yield.count .ident = nms t
def Evens (ts : List Syn) : Prop := (Syn.yield.go ts).count .ident = nms.go ts

theorem evens_nil : Evens [] := rfl
theorem evens_cons {t ts} (h : Even t) (hs : Evens ts) : Evens (t :: ts) := by
  unfold Evens Even at *
  rw [Syn.yield.go, nms.go, List.count_append, h, hs]
theorem yield_go_append : ∀ a b : List Syn, Syn.yield.go (a ++ b) = Syn.yield.go a ++ Syn.yield.go b
  | [], b => rfl
  | c :: a, b => by rw [List.cons_append, Syn.yield.go, Syn.yield.go, yield_go_append a b, List.append_assoc]
theorem evens_append {a b} (ha : Evens a) (hb : Evens b) : Evens (a ++ b) := by
  unfold Evens at *
  rw [yield_go_append, nms_go_append, List.count_append, ha, hb]
theorem evens_all : ∀ {ts : List Syn}, (∀ t ∈ ts, Even t) → Evens ts
  | [], _ => rfl
  | t :: ts, h => evens_cons (h t (by simp)) (evens_all fun t ht => h t (by simp [ht]))
theorem even_node {k ts} (h : Evens ts) (hk : k ≠ .name) : Even (.node k ts) := by
  unfold Even Evens at *
  rw [Syn.yield, nms, h, if_neg hk, Nat.zero_add]
theorem even_tok {k} (h : k ≠ .ident) : Even (.tok k) := by
  unfold Even
  rw [Syn.yield, nms]
  exact List.count_eq_zero.2 (by simpa using Ne.symm h)
theorem even_nm : Even nm := rfl
theorem evens_one {t} (h : Even t) : Evens [t] := evens_cons h evens_nil

theorem path_even {p} (h : Grammar.Path p) : Evens p := by cases h <;> rfl
theorem opt_even {k p} (h : Grammar.Opt k p) (hk : k ≠ .ident) : Evens p := by
  cases h
  · rfl
  · exact evens_one (even_tok hk)

mutual
theorem atomTy_even {t} : Grammar.AtomTy t → Even t
  | .int => rfl
  | .bool => rfl
  | .string => rfl
  | .named h => even_node (path_even h) (by decide)
  | .paren h => even_node (evens_cons (even_tok (by decide)) (evens_cons (ty_even h) (evens_one (even_tok (by decide))))) (by decide)
theorem appTy_even {t} : Grammar.AppTy t → Even t
  | .atom h => atomTy_even h
  | .app h hs => even_node (evens_append (path_even h) (evens_all fun a ha => atomTy_even (hs a ha))) (by decide)
theorem ty_even {t} : Grammar.Ty t → Even t
  | .app h => appTy_even h
  | .fn ha hb => even_node (evens_cons (appTy_even ha) (evens_cons (even_tok (by decide)) (evens_one (ty_even hb)))) (by decide)
end

theorem ann_even {a} (h : Grammar.Ann a) : Evens a := by
  cases h with
  | none => rfl
  | some h => exact evens_cons (even_tok (by decide)) (evens_one (ty_even h))

theorem level_ident {o l} (h : Grammar.level o = some l) : o ≠ .ident := by rintro rfl; cases h

theorem replicate_even (n : Nat) : Evens (List.replicate n nm) := evens_all fun t ht => by rw [(List.mem_replicate.1 ht).2]; rfl

mutual
theorem atom_even {t} : Grammar.Atom t → Even t
  | .paren h => even_node (evens_cons (even_tok (by decide)) (evens_cons (ex_even h) (evens_one (even_tok (by decide))))) (by decide)
  | .true_ => rfl
  | .false_ => rfl
  | .number => rfl
  | .string => rfl
  | .name => rfl
  | .inModule => rfl
  | .hole => rfl
theorem app_even {t} : Grammar.App t → Even t
  | .atom h => atom_even h
  | .app hf ha => even_node (evens_cons (app_even hf) (evens_one (atom_even ha))) (by decide)
theorem op_even {p t} : Grammar.Op p t → Even t
  | .app h => app_even h
  | .bin hl _ ha hb => even_node (evens_cons (op_even ha) (evens_cons (even_node (evens_one (even_tok (level_ident hl))) (by decide)) (evens_one (op_even hb)))) (by decide)
theorem case_even {t} : Grammar.Case t → Even t
  | .mk hp he => even_node (evens_append (evens_cons (even_tok (by decide)) (path_even hp)) (evens_cons (even_node (replicate_even _) (by decide))
      (evens_cons (even_tok (by decide)) (evens_one (ex_even he))))) (by decide)
theorem ex_even {t} : Grammar.Ex t → Even t
  | .op h => op_even h
  | .let_ ha hv hr => even_node (evens_append (evens_append (evens_cons (even_tok (by decide)) (evens_one even_nm)) (ann_even ha))
      (evens_cons (even_tok (by decide)) (evens_cons (ex_even hv) (evens_cons (even_tok (by decide)) (evens_one (ex_even hr)))))) (by decide)
  | .match_ hd hc => even_node (evens_append (evens_append (evens_cons (even_tok (by decide)) (evens_cons (ex_even hd) (evens_one (even_tok (by decide)))))
      (evens_all fun c h => case_even (hc c h))) (evens_one (even_tok (by decide)))) (by decide)
  | .if_ hc ha hb => even_node (evens_cons (even_tok (by decide)) (evens_cons (ex_even hc) (evens_cons (even_tok (by decide)) (evens_cons (ex_even ha)
      (evens_cons (even_tok (by decide)) (evens_one (ex_even hb))))))) (by decide)
  | .lam h => even_node (evens_cons (even_tok (by decide)) (evens_cons even_nm (evens_cons (even_tok (by decide)) (evens_one (ex_even h))))) (by decide)
  | .lamFold h => even_node (evens_cons (even_tok (by decide)) (evens_cons (even_tok (by decide)) (evens_cons even_nm (evens_cons (even_tok (by decide))
      (evens_one (ex_even h)))))) (by decide)
end

theorem field_even {t} (h : Grammar.Field t) : Even t := by
  cases h with
  | rec_ => rfl
  | ty h => exact even_node (evens_one (atomTy_even h)) (by decide)
theorem ctor_even {ts} (h : Grammar.Ctor ts) : Evens ts := by
  cases h with
  | mk h => exact evens_cons even_nm (evens_all fun f hf => field_even (h f hf))
theorem names_even {ts} (h : Grammar.Names ts) : Evens ts := by
  induction h with
  | none => rfl
  | last => rfl
  | more _ ih => exact evens_cons even_nm (evens_cons (even_tok (by decide)) ih)

theorem item_even {t} (h : Grammar.Item t) : Even t := by
  cases h with
  | import_ hn hl =>
    refine even_node (evens_append (evens_append (evens_cons (even_tok (by decide)) ?_) ?_) (evens_cons (even_tok (by decide)) (evens_cons (even_tok (by decide)) (evens_one (even_tok (by decide)))))) (by decide)
    · rcases hn with rfl | rfl <;> rfl
    · rcases hl with rfl | ⟨ns, h, rfl⟩
      · rfl
      · exact evens_one (even_node (evens_append (evens_cons (even_tok (by decide)) (names_even h)) (evens_one (even_tok (by decide)))) (by decide))
  | value hx ha he =>
    exact even_node (evens_append (evens_append (evens_append (opt_even hx (by decide)) (evens_cons (even_tok (by decide)) (evens_one even_nm))) (ann_even ha))
      (evens_cons (even_tok (by decide)) (evens_cons (ex_even he) (evens_one (even_tok (by decide)))))) (by decide)
  | type hx hp hxc hb hc hcs =>
    refine even_node (evens_append (evens_append (evens_append (evens_append (evens_append (evens_append (evens_append (opt_even hx (by decide))
      (evens_cons (even_tok (by decide)) (evens_one even_nm))) ?_) (evens_one (even_tok (by decide)))) (opt_even hxc (by decide))) (evens_one (even_node
      (evens_append (opt_even hb (by decide)) (ctor_even hc)) (by decide)))) ?_) (evens_one (even_tok (by decide)))) (by decide)
    · cases hp with
      | none => rfl
      | some => exact evens_one (even_node (replicate_even _) (by decide))
    · refine evens_all fun d hd => ?_
      obtain ⟨f, hf, rfl⟩ := hcs d hd
      exact even_node (evens_cons (even_tok (by decide)) (ctor_even hf)) (by decide)

/-! ### What is shown has the names that are written -/

/-- The names of a written tree. -/
def nmT' (t : TSyn) : Nat := nms t.shape
def nmG (ts : List TSyn) : Nat := nms.go (TSyn.shape.go ts)

theorem go_cons (c cs) : nmG (c :: cs) = nmT' c + nmG cs := by rw [nmG, TSyn.shape.go, nms.go]; rfl
theorem go_nil : nmG [] = 0 := rfl
theorem go_append : ∀ a b, nmG (a ++ b) = nmG a + nmG b
  | [], b => by simp [go_nil]
  | c :: a, b => by rw [List.cons_append, go_cons, go_cons, go_append a b]; omega
theorem node_names (k cs) : nmT' (.node k cs) = (if k = .name then 1 else 0) + nmG cs := by rw [nmT', TSyn.shape, nms]; rfl
theorem tok_names (k t) : nmT' (.tok k t) = 0 := by rw [nmT', TSyn.shape, nms]
theorem kw_names (k) : nmT' (kw k) = 0 := tok_names ..
theorem nm_names (t) : nmT' (nmT t) = 1 := by rw [nmT, node_names, go_cons, tok_names, go_nil]; rfl
theorem opt_names (b k) : nmG (optT b k) = 0 := by cases b <;> rfl

theorem path_len {nd : Nat → Nat} {ns v m n} (h : ShowsPath ns v m n) :
    (ns.map (toName nd)).toList.length + (v.map (toName nd)).toList.length = nmG (pathT m n) ∧ v.isSome = true := by
  cases h with
  | plain => exact ⟨rfl, rfl⟩
  | inModule => exact ⟨rfl, rfl⟩

theorem names_len {nd : Nat → Nat} {vs ts} (h : Each ShowsName vs ts) : (vs.map (toName nd)).length = nmG (ts.map nmT) := by
  induction h with
  | nil => rfl
  | cons _ _ ih => rw [List.map_cons, List.map_cons, go_cons, nm_names, List.length_cons, ih]; omega

theorem comma_names : ∀ (ts : List Text) (b : Bool), nmG (commaT ts b) = nmG (ts.map nmT)
  | [], b => by rw [commaT, opt_names]; rfl
  | [n], b => by rw [commaT, go_cons, opt_names]; rfl
  | n :: m :: ns, b => by
    have := comma_names (m :: ns) b
    have e : nmG ((n :: m :: ns).map nmT) = nmT' (nmT n) + nmG ((m :: ns).map nmT) := go_cons _ _
    rw [commaT, go_cons, go_cons, kw_names, this, e]
    omega

/-! ### No name in a module without a name -/

mutual
/-- Names in a module are complete. -/
def WholeTy : Ty → Prop
  | .fn a b => WholeTy a ∧ WholeTy b
  | .named ns name args => (ns.isSome = true → name.isSome = true) ∧ WholeTys args
  | .paren t => WholeTy t
  | _ => True
def WholeTys : Tys → Prop
  | .nil => True
  | .cons t ts => WholeTy t ∧ WholeTys ts
end

def WholeAnn : Option Ty → Prop
  | none => True
  | some t => WholeTy t

mutual
def WholeExpr : Expr → Prop
  | .nsName ns n => ns.isSome = true ∧ n.isSome = true
  | .apply f a => WholeExpr f ∧ WholeExpr a
  | .binary f a => WholeExpr f ∧ WholeExpr a
  | .letE _ ty v r => WholeAnn ty ∧ WholeExpr v ∧ WholeExpr r
  | .matchE d cs => WholeExpr d ∧ WholeCases cs
  | .ifE c t e => WholeExpr c ∧ WholeExpr t ∧ WholeExpr e
  | .lambda _ b => WholeExpr b
  | .paren e => WholeExpr e
  | _ => True
def WholeCases : Cases → Prop
  | .nil => True
  | .cons ns ctor _ body rest => (ns.isSome = true → ctor.isSome = true) ∧ WholeExpr body ∧ WholeCases rest
end

def WholeField : FieldSyntax → Prop
  | .recur => True
  | .type t => WholeTy t

/-- And imports have a path. -/
def WholeItem : Item → Prop
  | .importI _ r _ _ => r ≠ .noPath
  | .typeI _ _ _ _ _ cases => ∀ c ∈ cases, ∀ f ∈ c.fields, WholeField f
  | .valueI _ _ ty v => WholeAnn ty ∧ WholeExpr v

section
variable {nd : Nat → Nat}

mutual
theorem ty_len : ∀ (t : STy) {v : VTy}, ShowsTy v t → (namesTy (toTy nd v)).length = nmT' t.tree ∧ WholeTy (toTy nd v)
  | .int, _, .int => ⟨rfl, trivial⟩
  | .bool, _, .bool => ⟨rfl, trivial⟩
  | .string, _, .string => ⟨rfl, trivial⟩
  | .named _ _ ts, _, .named hp ha => by
    obtain ⟨h1, h2⟩ := path_len (nd := nd) hp
    obtain ⟨g1, g2⟩ := tys_len ts ha
    simp only [toTy, namesTy, STy.tree, WholeTy, Option.isSome_map, node_names, go_append, go_cons, go_nil, kw_names, nm_names, tok_names, opt_names, reduceCtorEq, if_false, Nat.zero_add, Nat.add_zero, List.length_append]
    exact ⟨by omega, fun _ => h2, g2⟩
  | .paren t, _, .paren h => by
    obtain ⟨h1, h2⟩ := ty_len t h
    simp only [toTy, toTyO, namesTy, STy.tree, WholeTy, node_names, go_append, go_cons, go_nil, kw_names, nm_names, tok_names, opt_names, reduceCtorEq, if_false, Nat.zero_add, Nat.add_zero, List.length_append]
    exact ⟨by omega, h2⟩
  | .fn a b, _, .fn ha hb => by
    obtain ⟨h1, h2⟩ := ty_len a ha
    obtain ⟨g1, g2⟩ := ty_len b hb
    simp only [toTy, toTyO, namesTy, STy.tree, WholeTy, node_names, go_append, go_cons, go_nil, kw_names, nm_names, tok_names, opt_names, reduceCtorEq, if_false, Nat.zero_add, Nat.add_zero, List.length_append]
    exact ⟨by omega, h2, g2⟩
theorem tys_len : ∀ (ts : List STy) {vs : List VTy}, Each ShowsTy vs ts → (namesTys (toTys nd vs)).length = nmG (STy.tree.trees ts) ∧ WholeTys (toTys nd vs)
  | [], _, .nil => ⟨rfl, trivial⟩
  | t :: ts, _, .cons h hs => by
    obtain ⟨h1, h2⟩ := ty_len t h
    obtain ⟨g1, g2⟩ := tys_len ts hs
    simp only [toTys, namesTys, STy.tree.trees, WholeTys, node_names, go_append, go_cons, go_nil, kw_names, nm_names, tok_names, opt_names, reduceCtorEq, if_false, Nat.zero_add, Nat.add_zero, List.length_append]
    exact ⟨by omega, h2, g2⟩
end

theorem ann_len {t v} (h : ShowsAnn v t) : (namesAnn (v.map (toTy nd))).length = nmG (annT t) ∧ WholeAnn (v.map (toTy nd)) := by
  cases h with
  | none => exact ⟨rfl, trivial⟩
  | some h =>
    obtain ⟨h1, h2⟩ := ty_len (nd := nd) _ h
    simp only [Option.map_some, namesAnn, annT, WholeAnn, node_names, go_append, go_cons, go_nil, kw_names, nm_names, tok_names, opt_names, reduceCtorEq, if_false, Nat.zero_add, Nat.add_zero, List.length_append]
    exact ⟨by omega, h2⟩

theorem one_name (v : VName) : ((some v).map (toName nd)).toList.length = 1 := rfl

mutual
theorem ex_len : ∀ {v : VEx} {e : SEx}, ShowsEx v e → (namesExpr (toExpr nd v)).length = nmT' e.tree ∧ WholeExpr (toExpr nd v)
  | _, _, .name _ => ⟨rfl, trivial⟩
  | _, _, .inModule _ _ => ⟨rfl, rfl, rfl⟩
  | _, _, .apply hf ha => by
    obtain ⟨h1, h2⟩ := ex_len hf
    obtain ⟨g1, g2⟩ := ex_len ha
    simp only [toExpr, toExprO, namesExpr, SEx.tree, WholeExpr, node_names, go_append, go_cons, go_nil, kw_names, nm_names, tok_names, opt_names, reduceCtorEq, if_false, Nat.zero_add, Nat.add_zero, List.length_append]
    exact ⟨by omega, h2, g2⟩
  | _, _, .binary hl hr => by
    obtain ⟨h1, h2⟩ := ex_len hl
    obtain ⟨g1, g2⟩ := ex_len hr
    simp only [toExpr, toExprO, namesExpr, SEx.tree, WholeExpr, node_names, go_append, go_cons, go_nil, kw_names, nm_names, tok_names, opt_names, reduceCtorEq, if_false, Nat.zero_add, Nat.add_zero, List.length_append]
    exact ⟨by omega, h2, g2⟩
  | _, _, .let_ hn ha he hr => by
    obtain ⟨h1, h2⟩ := ann_len (nd := nd) ha
    obtain ⟨g1, g2⟩ := ex_len he
    obtain ⟨k1, k2⟩ := ex_len hr
    simp only [toExpr, toExprO, namesExpr, SEx.tree, WholeExpr, one_name, node_names, go_append, go_cons, go_nil, kw_names, nm_names, tok_names, opt_names, reduceCtorEq, if_false, Nat.zero_add, Nat.add_zero, List.length_append]
    exact ⟨by omega, h2, g2, k2⟩
  | _, _, .match_ hd hc => by
    obtain ⟨h1, h2⟩ := ex_len hd
    obtain ⟨g1, g2⟩ := cases_len hc
    simp only [toExpr, toExprO, namesExpr, SEx.tree, WholeExpr, node_names, go_append, go_cons, go_nil, kw_names, nm_names, tok_names, opt_names, reduceCtorEq, if_false, Nat.zero_add, Nat.add_zero, List.length_append]
    exact ⟨by omega, h2, g2⟩
  | _, _, .if_ hc ht he => by
    obtain ⟨h1, h2⟩ := ex_len hc
    obtain ⟨g1, g2⟩ := ex_len ht
    obtain ⟨k1, k2⟩ := ex_len he
    simp only [toExpr, toExprO, namesExpr, SEx.tree, WholeExpr, node_names, go_append, go_cons, go_nil, kw_names, nm_names, tok_names, opt_names, reduceCtorEq, if_false, Nat.zero_add, Nat.add_zero, List.length_append]
    exact ⟨by omega, h2, g2, k2⟩
  | _, _, .true_ => ⟨rfl, trivial⟩
  | _, _, .false_ => ⟨rfl, trivial⟩
  | _, _, .number => ⟨rfl, trivial⟩
  | _, _, .string => ⟨rfl, trivial⟩
  | _, _, .lambda hn he => by
    obtain ⟨h1, h2⟩ := ex_len he
    simp only [toExpr, toExprO, namesExpr, SEx.tree, WholeExpr, one_name, node_names, go_append, go_cons, go_nil, kw_names, nm_names, tok_names, opt_names, reduceCtorEq, if_false, Nat.zero_add, Nat.add_zero, List.length_append]
    exact ⟨by omega, h2⟩
  | _, _, .paren he => by
    obtain ⟨h1, h2⟩ := ex_len he
    simp only [toExpr, toExprO, namesExpr, SEx.tree, WholeExpr, node_names, go_append, go_cons, go_nil, kw_names, nm_names, tok_names, opt_names, reduceCtorEq, if_false, Nat.zero_add, Nat.add_zero, List.length_append]
    exact ⟨by omega, h2⟩
  | _, _, .hole => ⟨rfl, trivial⟩
theorem cases_len : ∀ {vs : List VCase} {cs : List SCase}, ShowsCases vs cs → (namesCases (toCases nd vs)).length = nmG (caseTrees cs) ∧ WholeCases (toCases nd vs)
  | _, _, .nil => ⟨rfl, trivial⟩
  | _, _, .cons hp hv he hc => by
    obtain ⟨h1, h2⟩ := path_len (nd := nd) hp
    have hn := names_len (nd := nd) hv
    obtain ⟨g1, g2⟩ := ex_len he
    obtain ⟨k1, k2⟩ := cases_len hc
    simp only [toCases, toExprO, namesCases, caseTrees, SCase.tree, WholeCases, Option.getD_some, Option.isSome_map, node_names, go_append, go_cons, go_nil, kw_names, nm_names, tok_names, opt_names, reduceCtorEq, if_false, Nat.zero_add, Nat.add_zero, List.length_append]
    exact ⟨by omega, fun _ => h2, g2, k2⟩
end

theorem field_len {v f} (h : ShowsField v f) : (namesField (toField nd v)).length = nmT' f.tree ∧ WholeField (toField nd v) := by
  cases h with
  | rec_ => exact ⟨rfl, trivial⟩
  | type h =>
    obtain ⟨h1, h2⟩ := ty_len (nd := nd) _ h
    simp only [toField, toTyO, namesField, SField.tree, WholeField, node_names, go_append, go_cons, go_nil, kw_names, nm_names, tok_names, opt_names, reduceCtorEq, if_false, Nat.zero_add, Nat.add_zero, List.length_append]
    exact ⟨by omega, h2⟩

theorem fields_len {vs fs} (h : Each ShowsField vs fs) : ((vs.map (toField nd)).flatMap namesField).length = nmG (fs.map SField.tree) ∧
    ∀ f ∈ vs.map (toField nd), WholeField f := by
  induction h with
  | nil => exact ⟨rfl, nofun⟩
  | cons h _ ih =>
    obtain ⟨h1, h2⟩ := field_len (nd := nd) h
    simp only [List.map_cons, List.flatMap_cons, node_names, go_append, go_cons, go_nil, kw_names, nm_names, tok_names, opt_names, reduceCtorEq, if_false, Nat.zero_add, Nat.add_zero, List.length_append, List.mem_cons, forall_eq_or_imp]
    exact ⟨by omega, h2, ih.2⟩

theorem ctor_len {v c} (h : ShowsCtor v c) (b : Bool) : ((toCtor nd v).name.toList ++ (toCtor nd v).fields.flatMap namesField).length = nmT' (c.tree b) ∧
    ∀ f ∈ (toCtor nd v).fields, WholeField f := by
  cases h with
  | mk hn hf =>
    obtain ⟨h1, h2⟩ := fields_len (nd := nd) hf
    simp only [toCtor, SCtor.tree, one_name, node_names, go_append, go_cons, go_nil, kw_names, nm_names, tok_names, opt_names, reduceCtorEq, if_false, Nat.zero_add, Nat.add_zero, List.length_append]
    exact ⟨by omega, h2⟩

theorem ctors_len {vs cs} (h : Each ShowsCtor vs cs) : ((vs.map (toCtor nd)).flatMap fun c => c.name.toList ++ c.fields.flatMap namesField).length =
    nmG (cs.map (·.tree true)) ∧ ∀ c ∈ vs.map (toCtor nd), ∀ f ∈ c.fields, WholeField f := by
  induction h with
  | nil => exact ⟨rfl, nofun⟩
  | cons h _ ih =>
    obtain ⟨h1, h2⟩ := ctor_len (nd := nd) h true
    have ih1 := ih.1
    rw [List.map_cons, List.map_cons, List.flatMap_cons, List.length_append, go_cons, h1, ih1]
    refine ⟨rfl, fun c hc => ?_⟩
    rcases List.mem_cons.1 hc with rfl | hc
    · exact h2
    · exact ih.2 c hc

/-- What is read of an item without syntax errors: as many names as there are name nodes, and complete names. -/
theorem item_len (lookup : Lookup) {v i} (h : ShowsItem v i) : (namesItem (toItem lookup nd v)).length = nmT' i.tree ∧ WholeItem (toItem lookup nd v) := by
  cases h with
  | import_ hn hl =>
    refine ⟨?_, ?_⟩
    · simp only [toItem, namesItem, SItem.tree, node_names, go_append, go_cons, go_nil, kw_names, nm_names, tok_names, opt_names, reduceCtorEq, if_false, Nat.zero_add, Nat.add_zero, List.length_append]
      cases hn <;> cases hl
      · rfl
      · rename_i hl
        have := names_len (nd := nd) hl
        simp only [Option.map_none, Option.toList_none, Option.toList_some, List.map_nil, List.map_cons, Option.getD_some, List.length_nil, comma_names, List.cons_append, node_names, go_append, go_cons, go_nil, kw_names, nm_names, tok_names, opt_names, reduceCtorEq, if_false, Nat.zero_add, Nat.add_zero, List.length_append]
        omega
      · rfl
      · rename_i hl
        have := names_len (nd := nd) hl
        simp only [one_name, Option.toList_some, List.map_nil, List.map_cons, Option.getD_some, comma_names, List.cons_append, node_names, go_append, go_cons, go_nil, kw_names, nm_names, tok_names, opt_names, reduceCtorEq, if_false, Nat.zero_add, Nat.add_zero, List.length_append]
        omega
    · simp only [toItem, toImport, WholeItem]
      split <;> exact nofun
  | value hn ha he =>
    obtain ⟨h1, h2⟩ := ann_len (nd := nd) ha
    obtain ⟨g1, g2⟩ := ex_len (nd := nd) he
    simp only [toItem, toExprO, namesItem, SItem.tree, WholeItem, one_name, node_names, go_append, go_cons, go_nil, kw_names, nm_names, tok_names, opt_names, reduceCtorEq, if_false, Nat.zero_add, Nat.add_zero, List.length_append]
    exact ⟨by omega, h2, g2⟩
  | @type _ _ _ _ ps ps' _ bar c cs c' cs' hn hp hc hcs =>
    obtain ⟨h1, h2⟩ := ctor_len (nd := nd) hc bar
    obtain ⟨g1, g2⟩ := ctors_len (nd := nd) hcs
    have hp' : ((ps.getD []).map (toName nd)).length = nmG (if ps' = [] then [] else [.node .typeParams (ps'.map nmT)]) := by
      cases hp with
      | none => rfl
      | some h hne =>
        have := names_len (nd := nd) h
        rw [if_neg hne, go_cons, go_nil, node_names, if_neg (by decide)]
        simp only [Option.getD_some]
        omega
    refine ⟨?_, ?_⟩
    · simp only [toItem, namesItem, SItem.tree, one_name, List.map_cons, List.flatMap_cons, node_names, go_append, go_cons, go_nil, kw_names, nm_names, tok_names, opt_names, reduceCtorEq, if_false, Nat.zero_add, Nat.add_zero, List.length_append] at h1 g1 ⊢
      omega
    · intro d hd
      rcases List.mem_cons.1 hd with rfl | hd
      · exact h2
      · exact g2 d hd
end

end Tic.Spell
