/-
Every name that is read from an item, those of modules included, is a node of its own.
-/
import Verif.SpellNames

namespace Tic.Spell.Count

open Tic.Parser
open Tic.Units (toName toTy toTyO toTys toExpr toExprO toCases toField toCtor toItem toItemO toImport Lookup isName nameIds nameIdsIn nameIds_node
  nameIdsIn_nil nameIdsIn_cons opt ids ids_append opt_list pick1 pick2 pick3 opt_none opt_some)
open Tic.Spell
open Tic.Lower (Source Text VName VTy VEx VCase VField VCtor VItem item nameOf names tyOf tys exprOf exprs caseOf cases varsOf varLists
  namespaceIn nameIn fieldOf ctorOf paramsOf paramLists exposedOf exposedLists itemOf)
open Tic.Resolve (Name)

section
variable (nd : Nat → Nat) (m : Nat)

/-- How often a number occurs among the nodes of names. -/
def nn (l : List Name) : Nat := (l.map (·.node)).count m
theorem nn_append (a b) : nn m (a ++ b) = nn m a + nn m b := by simp [nn]
theorem nn_nil : nn m [] = 0 := rfl

/-- Of a name, a type, ... -/
def cN (n : VName) : Nat := [nd n.node].count m
def cNs (ns : List VName) : Nat := (ns.map (cN nd m)).sum
def cT (t : VTy) : Nat := nn m (namesTy (toTy nd t))
def cE (e : VEx) : Nat := nn m (namesExpr (toExpr nd e))
def cC (c : VCase) : Nat := nn m (namesCases (toCases nd [c]))

theorem opt_name (o : Option VName) : nn m (o.map (toName nd)).toList = opt (cN nd m) o := by
  cases o <;> simp [nn, opt, cN, toName]
theorem names_count (l : List VName) : nn m (l.map (toName nd)) = cNs nd m l := by
  induction l with
  | nil => rfl
  | cons a l ih => simp only [nn, List.map_cons, cNs, List.sum_cons, cN, toName] at ih ⊢; rw [List.count_cons, ih, List.count_singleton]; omega
theorem opt_ty (o : Option VTy) : nn m (namesTy (toTyO nd o)) = opt (cT nd m) o := by
  cases o <;> simp [toTyO, opt, cT, namesTy, nn]
theorem ann (o : Option VTy) : nn m (namesAnn (o.map (toTy nd))) = opt (cT nd m) o := by
  cases o <;> simp [namesAnn, opt, cT, nn]
theorem list_ty (l : List VTy) : nn m (namesTys (toTys nd l)) = (l.map (cT nd m)).sum := by
  induction l with
  | nil => simp [toTys, namesTys, nn]
  | cons a l ih => simp [toTys, namesTys, cT, ih, nn_append]
theorem opt_expr (o : Option VEx) : nn m (namesExpr (toExprO nd o)) = opt (cE nd m) o := by
  cases o <;> simp [toExprO, opt, cE, namesExpr, nn]
theorem list_case (l : List VCase) : nn m (namesCases (toCases nd l)) = (l.map (cC nd m)).sum := by
  induction l with
  | nil => simp [toCases, namesCases, nn]
  | cons a l ih =>
    obtain ⟨ns, c, vs, b⟩ := a
    simp only [toCases, namesCases, cC, List.map_cons, List.sum_cons, nn_append, ih, List.append_nil]
    omega
theorem one_case (ns c : Option VName) (vs : Option (List VName)) (b : Option VEx) :
    cC nd m (.mk ns c vs b) = opt (cN nd m) ns + opt (cN nd m) c + (opt (cNs nd m) vs + opt (cE nd m) b) := by
  simp only [cC, toCases, namesCases, nn_append, List.append_nil, opt_name, opt_expr, names_count]
  cases vs <;> simp [opt, cNs] <;> omega


theorem cT_int : cT nd m .int = 0 := rfl
theorem cT_bool : cT nd m .bool = 0 := rfl
theorem cT_string : cT nd m .string = 0 := rfl
theorem cT_err : cT nd m .err = 0 := rfl
theorem cT_fn (a b) : cT nd m (.fn a b) = opt (cT nd m) a + opt (cT nd m) b := by simp only [cT, toTy, namesTy, nn_append, opt_ty]
theorem cT_paren (a) : cT nd m (.paren a) = opt (cT nd m) a := by simp only [cT, toTy, namesTy, opt_ty]
theorem cT_named (ns n args) : cT nd m (.named ns n args) = opt (cN nd m) ns + (opt (cN nd m) n + (args.map (cT nd m)).sum) := by
  simp only [cT, toTy, namesTy, nn_append, opt_name, list_ty]

theorem cE_name (n) : cE nd m (.name n) = opt (cN nd m) n := by simp only [cE, toExpr, namesExpr, opt_name, nn_append]
theorem cE_inModule (ns n) : cE nd m (.inModule ns n) = opt (cN nd m) ns + opt (cN nd m) n := by simp only [cE, toExpr, namesExpr, opt_name, nn_append]
theorem cE_apply (a b) : cE nd m (.apply a b) = opt (cE nd m) a + opt (cE nd m) b := by simp only [cE, toExpr, namesExpr, nn_append, opt_expr]
theorem cE_binary (a o b) : cE nd m (.binary a o b) = opt (cE nd m) a + opt (cE nd m) b := by
  simp only [cE, toExpr, namesExpr, nn_append, opt_expr]
theorem cE_let (n t a b) : cE nd m (.let_ n t a b) = opt (cN nd m) n + (opt (cT nd m) t + (opt (cE nd m) a + opt (cE nd m) b)) := by
  simp only [cE, toExpr, namesExpr, nn_append, opt_expr, opt_name, ann]
theorem cE_match (a cs) : cE nd m (.match_ a cs) = opt (cE nd m) a + (cs.map (cC nd m)).sum := by
  simp only [cE, toExpr, namesExpr, nn_append, opt_expr, list_case]
theorem cE_if (a b c) : cE nd m (.if_ a b c) = opt (cE nd m) a + (opt (cE nd m) b + opt (cE nd m) c) := by
  simp only [cE, toExpr, namesExpr, nn_append, opt_expr]
theorem cE_lambda (f n b) : cE nd m (.lambda f n b) = opt (cN nd m) n + opt (cE nd m) b := by
  simp only [cE, toExpr, namesExpr, nn_append, opt_expr, opt_name]
theorem cE_paren (a) : cE nd m (.paren a) = opt (cE nd m) a := by simp only [cE, toExpr, namesExpr, opt_expr]
theorem cE_bool (a) : cE nd m (.bool a) = 0 := rfl
theorem cE_number (a) : cE nd m (.number a) = 0 := rfl
theorem cE_string (a) : cE nd m (.string a) = 0 := rfl
theorem cE_hole (a) : cE nd m (.hole a) = 0 := rfl

variable (s : Source)

theorem nameIn_le (cs : List Elem) : opt (cN nd m) (namespaceIn s cs) + opt (cN nd m) (nameIn s cs) ≤ cNs nd m (names s cs) := by
  unfold namespaceIn nameIn
  have := pick2 (cN nd m) (names s cs)
  unfold cNs
  split
  · omega
  · rw [opt_none]; omega

/-- All that is counted in an element. -/
def here (e : Elem) : Nat :=
  opt (cN nd m) (nameOf s e) + opt (cT nd m) (tyOf s e) + opt (cE nd m) (exprOf s e) + opt (cC nd m) (caseOf s e) + opt (cNs nd m) (varsOf s e)

/-- All that is counted in elements. -/
def heres (cs : List Elem) : Nat :=
  cNs nd m (names s cs) + ((tys s cs).map (cT nd m)).sum + ((exprs s cs).map (cE nd m)).sum + ((cases s cs).map (cC nd m)).sum
    + ((varLists s cs).map (cNs nd m)).sum

theorem heres_cons (c cs) : heres nd m s (c :: cs) = here nd m s c + heres nd m s cs := by
  have h1 : cNs nd m (names s (c :: cs)) = opt (cN nd m) (nameOf s c) + cNs nd m (names s cs) := by
    simp only [names, List.filterMap_cons, cNs]
    cases nameOf s c <;> simp [opt]
  have h2 : ((varLists s (c :: cs)).map (cNs nd m)).sum = opt (cNs nd m) (varsOf s c) + ((varLists s cs).map (cNs nd m)).sum := by
    simp only [varLists, List.filterMap_cons]
    cases varsOf s c <;> simp [opt]
  simp only [heres, here, h1, h2, tys, exprs, cases, List.map_append, List.sum_append, opt_list]
  omega

mutual
theorem here_le : ∀ e : Elem, here nd m s e ≤ ids nd m (nameIds e)
  | .token _ _ => by simp [here, nameOf, tyOf, exprOf, caseOf, varsOf, opt]
  | .trivia _ _ => by simp [here, nameOf, tyOf, exprOf, caseOf, varsOf, opt]
  | .node id k sp f cs => by
    have ih := heres_le cs
    simp only [heres] at ih
    have t2 := pick2 (cT nd m) (tys s cs)
    have e3 := pick3 (cE nd m) (exprs s cs)
    have n2 := pick2 (cN nd m) (names s cs)
    have v1 := pick1 (cNs nd m) (varLists s cs)
    have ni := nameIn_le nd m s cs
    have hcn : cNs nd m (names s cs) = ((names s cs).map (cN nd m)).sum := rfl
    rw [nameIds_node, ids_append]
    cases k <;> simp only [here, nameOf, tyOf, exprOf, caseOf, varsOf, opt_none, opt_some, cT_int, cT_bool, cT_string, cT_err, cT_fn, cT_paren,
      cT_named, cE_name, cE_inModule, cE_apply, cE_binary, cE_let, cE_match, cE_if, cE_lambda, cE_paren, cE_bool, cE_number, cE_string, cE_hole,
      one_case, reduceCtorEq, if_false, if_true] <;>
      first | (simp only [cN, ids, List.map_cons, List.map_nil]; omega) | omega
theorem heres_le : ∀ cs : List Elem, heres nd m s cs ≤ ids nd m (nameIdsIn cs)
  | [] => by simp [heres, names, cNs, tys, exprs, cases, varLists]
  | c :: cs => by
    rw [heres_cons, nameIdsIn_cons, ids_append]
    exact Nat.add_le_add (here_le c) (heres_le cs)
end

/-! ### Items -/

/-- How often a number occurs among the nodes of a field, a constructor. -/
def cF (x : VField) : Nat := nn m (namesField (toField nd x))
def cK (x : VCtor) : Nat := nn m ((toCtor nd x).name.toList ++ (toCtor nd x).fields.flatMap namesField)

theorem list_field (l : List VField) : nn m ((l.map (toField nd)).flatMap namesField) = (l.map (cF nd m)).sum := by
  induction l with
  | nil => rfl
  | cons a l ih => simp only [List.map_cons, List.flatMap_cons, nn_append, List.sum_cons, cF, ih]
theorem list_ctor (l : List VCtor) : nn m ((l.map (toCtor nd)).flatMap fun c => c.name.toList ++ c.fields.flatMap namesField) = (l.map (cK nd m)).sum := by
  induction l with
  | nil => rfl
  | cons a l ih => simp only [List.map_cons, List.flatMap_cons, nn_append, List.sum_cons, cK, ih]
theorem cF_rec : cF nd m .rec_ = 0 := rfl
theorem cF_type (t) : cF nd m (.type t) = opt (cT nd m) t := by simp only [cF, toField, namesField, opt_ty]
theorem cK_mk (n fs) : cK nd m ⟨n, fs⟩ = opt (cN nd m) n + (fs.map (cF nd m)).sum := by
  simp only [cK, toCtor, nn_append, list_field, opt_name]

theorem field_le (e : Elem) : opt (cN nd m) (nameOf s e) + opt (cF nd m) (fieldOf s e) ≤ ids nd m (nameIds e) := by
  match e with
  | .token _ _ => simp [nameOf, fieldOf, opt]
  | .trivia _ _ => simp [nameOf, fieldOf, opt]
  | .node id k sp f cs =>
    have h := here_le nd m s (.node id k sp f cs)
    have ih := heres_le nd m s cs
    simp only [heres] at ih
    have t1 := pick1 (cT nd m) (tys s cs)
    rw [nameIds_node, ids_append] at h ⊢
    simp only [here] at h
    cases k <;> simp only [nameOf, fieldOf, opt_none, opt_some, cF_rec, cF_type] at h ⊢ <;> omega

theorem fields_le : ∀ cs : List Elem, cNs nd m (names s cs) + ((cs.filterMap (fieldOf s)).map (cF nd m)).sum ≤ ids nd m (nameIdsIn cs)
  | [] => by simp [names, cNs]
  | c :: cs => by
    have h1 := field_le nd m s c
    have h2 := fields_le cs
    have h3 : cNs nd m (names s (c :: cs)) = opt (cN nd m) (nameOf s c) + cNs nd m (names s cs) := by
      simp only [names, List.filterMap_cons, cNs]
      cases nameOf s c <;> simp [opt]
    have h4 : (((c :: cs).filterMap (fieldOf s)).map (cF nd m)).sum = opt (cF nd m) (fieldOf s c) + ((cs.filterMap (fieldOf s)).map (cF nd m)).sum := by
      simp only [List.filterMap_cons]
      cases fieldOf s c <;> simp [opt]
    rw [nameIdsIn_cons, ids_append, h3, h4]
    omega

/-- All that is counted for an item in its children. -/
def parts (e : Elem) : Nat :=
  opt (cN nd m) (nameOf s e) + opt (cT nd m) (tyOf s e) + opt (cE nd m) (exprOf s e) + opt (cK nd m) (ctorOf s e) + opt (cNs nd m) (paramsOf s e)
    + opt (cNs nd m) (exposedOf s e)

theorem parts_le (e : Elem) : parts nd m s e ≤ ids nd m (nameIds e) := by
  match e with
  | .token _ _ => simp [parts, nameOf, tyOf, exprOf, ctorOf, paramsOf, exposedOf, opt]
  | .trivia _ _ => simp [parts, nameOf, tyOf, exprOf, ctorOf, paramsOf, exposedOf, opt]
  | .node id k sp f cs =>
    have h := here_le nd m s (.node id k sp f cs)
    have ih := heres_le nd m s cs
    have ff := fields_le nd m s cs
    have n1 := pick1 (cN nd m) (names s cs)
    have hcn : cNs nd m (names s cs) = ((names s cs).map (cN nd m)).sum := rfl
    simp only [heres] at ih
    rw [nameIds_node, ids_append] at h ⊢
    simp only [here, parts] at h ⊢
    cases k <;> simp only [ctorOf, paramsOf, exposedOf, opt_none, opt_some, cK_mk, nameOf, tyOf, exprOf] at h ⊢ <;> omega

theorem partss_le : ∀ cs : List Elem, cNs nd m (names s cs) + ((tys s cs).map (cT nd m)).sum + ((exprs s cs).map (cE nd m)).sum
    + ((cs.filterMap (ctorOf s)).map (cK nd m)).sum + ((paramLists s cs).map (cNs nd m)).sum + ((exposedLists s cs).map (cNs nd m)).sum
    ≤ ids nd m (nameIdsIn cs)
  | [] => by simp [names, cNs, tys, exprs, paramLists, exposedLists]
  | c :: cs => by
    have h1 := parts_le nd m s c
    have h2 := partss_le cs
    have key : ∀ {α : Type} (w : α → Nat) (f : Elem → Option α), (((c :: cs).filterMap f).map w).sum = opt w (f c) + ((cs.filterMap f).map w).sum := by
      intro α w f
      simp only [List.filterMap_cons]
      cases f c <;> simp [opt]
    have h3 := key (cN nd m) (nameOf s)
    have h4 := key (cK nd m) (ctorOf s)
    have h5 := key (cNs nd m) (paramsOf s)
    have h6 := key (cNs nd m) (exposedOf s)
    simp only [parts] at h1
    simp only [cNs, names, paramLists, exposedLists] at h2 h3 h4 h5 h6 ⊢
    rw [nameIdsIn_cons, ids_append, tys, exprs, List.map_append, List.map_append, List.sum_append, List.sum_append, opt_list, opt_list, h3, h4, h5, h6]
    omega

theorem optList (ps : Option (List VName)) : nn m ((ps.getD []).map (toName nd)) = opt (cNs nd m) ps := by
  rw [names_count]
  cases ps <;> rfl

/-- The names read from an item are name nodes below it, each counted once. -/
theorem item_le (lookup : Lookup) {e : Elem} {i : VItem} (h : itemOf s e = some i) : nn m (namesItem (toItem lookup nd i)) ≤ ids nd m (nameIds e) := by
  match e, h with
  | .node id k sp f cs, h =>
    have hp := partss_le nd m s cs
    have n1 := pick1 (cN nd m) (names s cs)
    have t1 := pick1 (cT nd m) (tys s cs)
    have e1 := pick1 (cE nd m) (exprs s cs)
    have p1 := pick1 (cNs nd m) (paramLists s cs)
    have x1 := pick1 (cNs nd m) (exposedLists s cs)
    have hcn : cNs nd m (names s cs) = ((names s cs).map (cN nd m)).sum := rfl
    rw [nameIds_node, ids_append]
    cases k <;> simp only [itemOf, reduceCtorEq, Option.some.injEq] at h <;> subst h <;>
      simp only [toItem, namesItem, nn_append, opt_name, optList, list_ctor, opt_expr, ann, reduceCtorEq, if_false] <;> omega

theorem root_le (lookup : Lookup) (t : Elem) : nn m (namesItem (toItemO lookup nd (item s t))) ≤ ids nd m (nameIds t) := by
  cases h : item s t with
  | none => simp [toItemO, namesItem, namesAnn, namesExpr, nn]
  | some v =>
    match t, h with
    | .node id k sp f cs, h =>
      rw [Lower.item] at h
      obtain ⟨c, hc, hv⟩ := List.mem_filterMap.1 (List.mem_of_getElem? h)
      have g1 := item_le nd m s lookup hv
      have hsub : ∀ {ds : List Elem}, c ∈ ds → ids nd m (nameIds c) ≤ ids nd m (nameIdsIn ds) := by
        intro ds
        induction ds with
        | nil => intro h; cases h
        | cons d ds ih =>
          intro h
          rw [nameIdsIn_cons, ids_append]
          rcases List.mem_cons.1 h with rfl | h
          · omega
          · have := ih h; omega
      have k1 := hsub hc
      simp only [toItemO]
      rw [nameIds_node, ids_append]
      omega

end

end Tic.Spell.Count
