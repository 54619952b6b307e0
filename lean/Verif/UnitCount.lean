/-
Every name of an item is a node of its own: whatever the accessors give, they give no name twice.
-/
import Verif.UnitOf
import Verif.ApiNodes
import Verif.HoverFind

namespace Tic.Units

open Tic.Parser
open Tic.Lower (Source Text VName VTy VEx VCase VField VCtor VItem item nameOf names tyOf tys exprOf exprs caseOf cases varsOf varLists
  namespaceIn nameIn fieldOf ctorOf paramsOf paramLists exposedOf exposedLists itemOf)
open Tic.Resolve (Name Ty Tys Expr Cases FieldSyntax CaseSyntax ImportResult Item Export Sym ErrKind optNode usesTy usesTys usesAnn)
open Tic.Api (nodesExpr nodesCases nodesFields nodesTypeCases nodesItem fakeNode)
open Tic.Hover (descendants nodeId)

/-- A name node. -/
def isName : Elem → Bool
  | .node _ .name _ _ _ => true
  | _ => false

/-- The ids of the name nodes of a tree. -/
def nameIds (e : Elem) : List Nat := ((descendants e).filter isName).map nodeId
def nameIdsIn (cs : List Elem) : List Nat := ((descendants.go cs).filter isName).map nodeId

theorem nameIdsIn_nil : nameIdsIn [] = [] := by simp [nameIdsIn, descendants.go]
theorem nameIdsIn_cons (c cs) : nameIdsIn (c :: cs) = nameIds c ++ nameIdsIn cs := by simp [nameIdsIn, nameIds, Hover.go_cons]
theorem nameIds_node (id k sp f cs) : nameIds (.node id k sp f cs) = (if k = .name then [id] else []) ++ nameIdsIn cs := by
  have : ∀ l, (Elem.node id k sp f cs :: l).filter isName = (if k = .name then [Elem.node id k sp f cs] else []) ++ l.filter isName := by
    intro l
    cases k <;> simp [List.filter_cons, isName]
  rw [nameIds, nameIdsIn, Hover.descendants_node, this, List.map_append]
  split <;> simp [nodeId]

section
variable (nd : Nat → Nat) (m : Nat)

/-- How often a number occurs among the nodes of a name, a type, ... -/
def cN (n : VName) : Nat := [nd n.node].count m
def cNs (ns : List VName) : Nat := (ns.map (cN nd m)).sum
def cT (t : VTy) : Nat := (usesTy (toTy nd t)).count m
def cE (e : VEx) : Nat := (nodesExpr (toExpr nd e)).count m
def cC (c : VCase) : Nat := (nodesCases (toCases nd [c])).count m
def opt {α : Type} (w : α → Nat) : Option α → Nat
  | none => 0
  | some a => w a

def ids (l : List Nat) : Nat := (l.map nd).count m

theorem ids_append (a b : List Nat) : ids nd m (a ++ b) = ids nd m a + ids nd m b := by simp [ids]

theorem opt_list {α : Type} (w : α → Nat) (o : Option α) : (o.toList.map w).sum = opt w o := by cases o <;> simp [opt]

theorem pick1 {α : Type} (w : α → Nat) (l : List α) : opt w l[0]? ≤ (l.map w).sum := by
  match l with
  | [] => simp [opt]
  | a :: l => simp [opt]
theorem pick2 {α : Type} (w : α → Nat) (l : List α) : opt w l[0]? + opt w l[1]? ≤ (l.map w).sum := by
  match l with
  | [] => simp [opt]
  | [a] => simp [opt]
  | a :: b :: l => simp [opt]; try omega
theorem pick3 {α : Type} (w : α → Nat) (l : List α) : opt w l[0]? + opt w l[1]? + opt w l[2]? ≤ (l.map w).sum := by
  match l with
  | [] => simp [opt]
  | [a] => simp [opt]
  | [a, b] => simp [opt]
  | a :: b :: c :: l => simp [opt]; omega

theorem opt_name (o : Option VName) : (optNode (o.map (toName nd))).count m = opt (cN nd m) o := by
  cases o <;> simp [optNode, opt, cN, toName]
theorem names_count (l : List VName) : ((l.map (toName nd)).map (·.node)).count m = cNs nd m l := by
  induction l with
  | nil => rfl
  | cons a l ih => simp only [List.map_cons, cNs, List.sum_cons, cN, toName] at ih ⊢; rw [List.count_cons, ih, List.count_singleton]; omega
theorem opt_ty (o : Option VTy) : (usesTy (toTyO nd o)).count m = opt (cT nd m) o := by
  cases o <;> simp [toTyO, opt, cT, usesTy]
theorem ann (o : Option VTy) : (usesAnn (o.map (toTy nd))).count m = opt (cT nd m) o := by
  cases o <;> simp [usesAnn, opt, cT]
theorem list_ty (l : List VTy) : (usesTys (toTys nd l)).count m = (l.map (cT nd m)).sum := by
  induction l with
  | nil => simp [toTys, usesTys]
  | cons a l ih => simp [toTys, usesTys, cT, ih]
theorem opt_expr (o : Option VEx) : (nodesExpr (toExprO nd o)).count m = opt (cE nd m) o := by
  cases o <;> simp [toExprO, opt, cE, nodesExpr]
theorem list_case (l : List VCase) : (nodesCases (toCases nd l)).count m = (l.map (cC nd m)).sum := by
  induction l with
  | nil => simp [toCases, nodesCases]
  | cons a l ih =>
    obtain ⟨ns, c, vs, b⟩ := a
    simp only [toCases, nodesCases, cC, List.map_cons, List.sum_cons, List.count_append, ih, List.append_nil]
    omega
theorem one_case (ns c : Option VName) (vs : Option (List VName)) (b : Option VEx) :
    cC nd m (.mk ns c vs b) = opt (cN nd m) c + (opt (cNs nd m) vs + opt (cE nd m) b) := by
  simp only [cC, toCases, nodesCases, List.count_append, List.append_nil, opt_name, opt_expr, names_count]
  cases vs <;> simp [opt, cNs]

theorem opt_none {α : Type} (w : α → Nat) : opt w none = 0 := rfl
theorem opt_some {α : Type} (w : α → Nat) (a : α) : opt w (some a) = w a := rfl

theorem cT_int : cT nd m .int = 0 := rfl
theorem cT_bool : cT nd m .bool = 0 := rfl
theorem cT_string : cT nd m .string = 0 := rfl
theorem cT_err : cT nd m .err = 0 := rfl
theorem cT_fn (a b) : cT nd m (.fn a b) = opt (cT nd m) a + opt (cT nd m) b := by simp only [cT, toTy, usesTy, List.count_append, opt_ty]
theorem cT_paren (a) : cT nd m (.paren a) = opt (cT nd m) a := by simp only [cT, toTy, usesTy, opt_ty]
theorem cT_named (ns n args) : cT nd m (.named ns n args) = opt (cN nd m) n + (args.map (cT nd m)).sum := by
  simp only [cT, toTy, usesTy, List.count_append, opt_name, list_ty]

theorem cE_name (n) : cE nd m (.name n) = opt (cN nd m) n := by simp only [cE, toExpr, nodesExpr, opt_name]
theorem cE_inModule (ns n) : cE nd m (.inModule ns n) = opt (cN nd m) n := by simp only [cE, toExpr, nodesExpr, opt_name]
theorem cE_apply (a b) : cE nd m (.apply a b) = opt (cE nd m) a + opt (cE nd m) b := by simp only [cE, toExpr, nodesExpr, List.count_append, opt_expr]
theorem cE_binary (a o b) : cE nd m (.binary a o b) = opt (cE nd m) a + opt (cE nd m) b := by
  simp only [cE, toExpr, nodesExpr, List.count_append, opt_expr]
theorem cE_let (n t a b) : cE nd m (.let_ n t a b) = opt (cT nd m) t + (opt (cE nd m) a + (opt (cN nd m) n + opt (cE nd m) b)) := by
  simp only [cE, toExpr, nodesExpr, List.count_append, opt_expr, opt_name, ann]
theorem cE_match (a cs) : cE nd m (.match_ a cs) = opt (cE nd m) a + (cs.map (cC nd m)).sum := by
  simp only [cE, toExpr, nodesExpr, List.count_append, opt_expr, list_case]
theorem cE_if (a b c) : cE nd m (.if_ a b c) = opt (cE nd m) a + (opt (cE nd m) b + opt (cE nd m) c) := by
  simp only [cE, toExpr, nodesExpr, List.count_append, opt_expr]
theorem cE_lambda (f n b) : cE nd m (.lambda f n b) = opt (cN nd m) n + opt (cE nd m) b := by
  simp only [cE, toExpr, nodesExpr, List.count_append, opt_expr, opt_name]
theorem cE_paren (a) : cE nd m (.paren a) = opt (cE nd m) a := by simp only [cE, toExpr, nodesExpr, opt_expr]
theorem cE_bool (a) : cE nd m (.bool a) = 0 := rfl
theorem cE_number (a) : cE nd m (.number a) = 0 := rfl
theorem cE_string (a) : cE nd m (.string a) = 0 := rfl
theorem cE_hole (a) : cE nd m (.hole a) = 0 := rfl

variable (s : Source)

theorem nameIn_le (cs : List Elem) : opt (cN nd m) (nameIn s cs) ≤ cNs nd m (names s cs) := by
  unfold nameIn
  have := pick2 (cN nd m) (names s cs)
  unfold cNs
  split <;> omega

/-- All that is counted in an element. -/
def here (e : Elem) : Nat :=
  opt (cN nd m) (nameOf s e) + opt (cT nd m) (tyOf s e) + opt (cE nd m) (exprOf s e) + opt (cC nd m) (caseOf s e) + opt (cNs nd m) (varsOf s e)

/-- All that is counted in elements. -/
def heres (cs : List Elem) : Nat :=
  cNs nd m (names s cs) + ((tys s cs).map (cT nd m)).sum + ((exprs s cs).map (cE nd m)).sum + ((cases s cs).map (cC nd m)).sum
    + ((varLists s cs).map (cNs nd m)).sum

theorem heres_cons (c cs) : heres nd m s (c :: cs) = here nd m s c + heres nd m s cs := by
  have h1 : cNs nd m (names s (c :: cs)) = opt (cN nd m) (nameOf s c) + cNs nd m (names s cs) := by
    simp only [names, List.filterMap_cons, cNs]
    cases nameOf s c <;> simp [opt]
  have h2 : ((varLists s (c :: cs)).map (cNs nd m)).sum = opt (cNs nd m) (varsOf s c) + ((varLists s cs).map (cNs nd m)).sum := by
    simp only [varLists, List.filterMap_cons]
    cases varsOf s c <;> simp [opt]
  simp only [heres, here, h1, h2, tys, exprs, cases, List.map_append, List.sum_append, opt_list]
  omega

mutual
theorem here_le : ∀ e : Elem, here nd m s e ≤ ids nd m (nameIds e)
  | .token _ _ => by simp [here, nameOf, tyOf, exprOf, caseOf, varsOf, opt]
  | .trivia _ _ => by simp [here, nameOf, tyOf, exprOf, caseOf, varsOf, opt]
  | .node id k sp f cs => by
    have ih := heres_le cs
    simp only [heres] at ih
    have t2 := pick2 (cT nd m) (tys s cs)
    have e3 := pick3 (cE nd m) (exprs s cs)
    have n2 := pick2 (cN nd m) (names s cs)
    have v1 := pick1 (cNs nd m) (varLists s cs)
    have ni := nameIn_le nd m s cs
    have hcn : cNs nd m (names s cs) = ((names s cs).map (cN nd m)).sum := rfl
    rw [nameIds_node, ids_append]
    cases k <;> simp only [here, nameOf, tyOf, exprOf, caseOf, varsOf, opt_none, opt_some, cT_int, cT_bool, cT_string, cT_err, cT_fn, cT_paren,
      cT_named, cE_name, cE_inModule, cE_apply, cE_binary, cE_let, cE_match, cE_if, cE_lambda, cE_paren, cE_bool, cE_number, cE_string, cE_hole,
      one_case, reduceCtorEq, if_false, if_true] <;>
      first | (simp only [cN, ids, List.map_cons, List.map_nil]; omega) | omega
theorem heres_le : ∀ cs : List Elem, heres nd m s cs ≤ ids nd m (nameIdsIn cs)
  | [] => by simp [heres, names, cNs, tys, exprs, cases, varLists]
  | c :: cs => by
    rw [heres_cons, nameIdsIn_cons, ids_append]
    exact Nat.add_le_add (here_le c) (heres_le cs)
end

/-! ### Items -/

/-- How often a number occurs among the nodes of a field, a constructor. -/
def cF (x : VField) : Nat := (nodesFields [toField nd x]).count m
def cK (x : VCtor) : Nat := (nodesTypeCases [toCtor nd x]).count m

theorem list_field (l : List VField) : (nodesFields (l.map (toField nd))).count m = (l.map (cF nd m)).sum := by
  induction l with
  | nil => rfl
  | cons a l ih =>
    cases a <;> simp only [List.map_cons, toField, nodesFields, List.sum_cons, cF, List.count_append, ih, List.append_nil, List.count_nil, Nat.zero_add]
theorem list_ctor (l : List VCtor) : (nodesTypeCases (l.map (toCtor nd))).count m = (l.map (cK nd m)).sum := by
  induction l with
  | nil => rfl
  | cons a l ih =>
    simp only [List.map_cons, nodesTypeCases, List.sum_cons, cK, List.count_append, ih, List.append_nil]
    omega
theorem cF_rec : cF nd m .rec_ = 0 := rfl
theorem cF_type (t) : cF nd m (.type t) = opt (cT nd m) t := by simp only [cF, toField, nodesFields, List.append_nil, opt_ty]
theorem cK_mk (n fs) : cK nd m ⟨n, fs⟩ = opt (cN nd m) n + (fs.map (cF nd m)).sum := by
  simp only [cK, toCtor, nodesTypeCases, List.append_nil, List.count_append, list_field, opt_name]
  omega

theorem field_le (e : Elem) : opt (cN nd m) (nameOf s e) + opt (cF nd m) (fieldOf s e) ≤ ids nd m (nameIds e) := by
  match e with
  | .token _ _ => simp [nameOf, fieldOf, opt]
  | .trivia _ _ => simp [nameOf, fieldOf, opt]
  | .node id k sp f cs =>
    have h := here_le nd m s (.node id k sp f cs)
    have ih := heres_le nd m s cs
    simp only [heres] at ih
    have t1 := pick1 (cT nd m) (tys s cs)
    rw [nameIds_node, ids_append] at h ⊢
    simp only [here] at h
    cases k <;> simp only [nameOf, fieldOf, opt_none, opt_some, cF_rec, cF_type] at h ⊢ <;> omega

theorem fields_le : ∀ cs : List Elem, cNs nd m (names s cs) + ((cs.filterMap (fieldOf s)).map (cF nd m)).sum ≤ ids nd m (nameIdsIn cs)
  | [] => by simp [names, cNs]
  | c :: cs => by
    have h1 := field_le nd m s c
    have h2 := fields_le cs
    have h3 : cNs nd m (names s (c :: cs)) = opt (cN nd m) (nameOf s c) + cNs nd m (names s cs) := by
      simp only [names, List.filterMap_cons, cNs]
      cases nameOf s c <;> simp [opt]
    have h4 : (((c :: cs).filterMap (fieldOf s)).map (cF nd m)).sum = opt (cF nd m) (fieldOf s c) + ((cs.filterMap (fieldOf s)).map (cF nd m)).sum := by
      simp only [List.filterMap_cons]
      cases fieldOf s c <;> simp [opt]
    rw [nameIdsIn_cons, ids_append, h3, h4]
    omega

/-- All that is counted for an item in its children. -/
def parts (e : Elem) : Nat :=
  opt (cN nd m) (nameOf s e) + opt (cT nd m) (tyOf s e) + opt (cE nd m) (exprOf s e) + opt (cK nd m) (ctorOf s e) + opt (cNs nd m) (paramsOf s e)
    + opt (cNs nd m) (exposedOf s e)

theorem parts_le (e : Elem) : parts nd m s e ≤ ids nd m (nameIds e) := by
  match e with
  | .token _ _ => simp [parts, nameOf, tyOf, exprOf, ctorOf, paramsOf, exposedOf, opt]
  | .trivia _ _ => simp [parts, nameOf, tyOf, exprOf, ctorOf, paramsOf, exposedOf, opt]
  | .node id k sp f cs =>
    have h := here_le nd m s (.node id k sp f cs)
    have ih := heres_le nd m s cs
    have ff := fields_le nd m s cs
    have n1 := pick1 (cN nd m) (names s cs)
    have hcn : cNs nd m (names s cs) = ((names s cs).map (cN nd m)).sum := rfl
    simp only [heres] at ih
    rw [nameIds_node, ids_append] at h ⊢
    simp only [here, parts] at h ⊢
    cases k <;> simp only [ctorOf, paramsOf, exposedOf, opt_none, opt_some, cK_mk, nameOf, tyOf, exprOf] at h ⊢ <;> omega

theorem partss_le : ∀ cs : List Elem, cNs nd m (names s cs) + ((tys s cs).map (cT nd m)).sum + ((exprs s cs).map (cE nd m)).sum
    + ((cs.filterMap (ctorOf s)).map (cK nd m)).sum + ((paramLists s cs).map (cNs nd m)).sum + ((exposedLists s cs).map (cNs nd m)).sum
    ≤ ids nd m (nameIdsIn cs)
  | [] => by simp [names, cNs, tys, exprs, paramLists, exposedLists]
  | c :: cs => by
    have h1 := parts_le nd m s c
    have h2 := partss_le cs
    have key : ∀ {α : Type} (w : α → Nat) (f : Elem → Option α), (((c :: cs).filterMap f).map w).sum = opt w (f c) + ((cs.filterMap f).map w).sum := by
      intro α w f
      simp only [List.filterMap_cons]
      cases f c <;> simp [opt]
    have h3 := key (cN nd m) (nameOf s)
    have h4 := key (cK nd m) (ctorOf s)
    have h5 := key (cNs nd m) (paramsOf s)
    have h6 := key (cNs nd m) (exposedOf s)
    simp only [parts] at h1
    simp only [cNs, names, paramLists, exposedLists] at h2 h3 h4 h5 h6 ⊢
    rw [nameIdsIn_cons, ids_append, tys, exprs, List.map_append, List.map_append, List.sum_append, List.sum_append, opt_list, opt_list, h3, h4, h5, h6]
    omega

theorem optList (ps : Option (List VName)) : ((((ps.getD []).map (toName nd)).map (·.node)).count m) = opt (cNs nd m) ps := by
  rw [names_count]
  cases ps <;> rfl

/-- The names of an item are name nodes below it, each counted once; and the node of an import is the item's. -/
theorem item_le (lookup : Lookup) {e : Elem} {i : VItem} (h : itemOf s e = some i) :
    (nodesItem (toItem lookup nd i)).count m ≤ ids nd m (nameIds e) ∧
    (fakeNode (toItem lookup nd i)).count m + ids nd m (nameIds e) ≤ ids nd m e.ids := by
  match e, h with
  | .node id k sp f cs, h =>
    have hp := partss_le nd m s cs
    have n1 := pick1 (cN nd m) (names s cs)
    have t1 := pick1 (cT nd m) (tys s cs)
    have e1 := pick1 (cE nd m) (exprs s cs)
    have p1 := pick1 (cNs nd m) (paramLists s cs)
    have x1 := pick1 (cNs nd m) (exposedLists s cs)
    have hcn : cNs nd m (names s cs) = ((names s cs).map (cN nd m)).sum := rfl
    have hids : ids nd m (nameIdsIn cs) ≤ ids nd m (Elem.ids.go cs) := by
      rw [← Hover.ids_go_eq]
      exact ((List.filter_sublist.map nodeId).map nd).count_le m
    have hnode : ids nd m (Elem.ids (.node id k sp f cs)) = [nd id].count m + ids nd m (Elem.ids.go cs) := by
      rw [Elem.ids, ← List.singleton_append, ids_append]; rfl
    rw [hnode, nameIds_node, ids_append]
    cases k <;> simp only [itemOf, reduceCtorEq, Option.some.injEq] at h <;> subst h <;>
      simp only [toItem, nodesItem, List.count_append, opt_name, optList, list_ctor, opt_expr, ann, reduceCtorEq, if_false]
    · refine ⟨by omega, ?_⟩
      have : (ids nd m []) = 0 := rfl
      rw [this]
      have : (fakeNode (.importI (nd id) (toImport lookup (nd id) (Lower.childToken s cs .string)) ((names s cs)[0]?.map (toName nd))
        ((((exposedLists s cs)[0]?).getD []).map (toName nd)))).count m ≤ [nd id].count m := by
        cases (names s cs)[0]? <;> simp [fakeNode]
      omega
    · refine ⟨by omega, ?_⟩
      have : (ids nd m []) = 0 := rfl
      rw [this]; simp only [fakeNode, List.count_nil]; omega
    · refine ⟨by omega, ?_⟩
      have : (ids nd m []) = 0 := rfl
      rw [this]; simp only [fakeNode, List.count_nil]; omega

end

end Tic.Units
