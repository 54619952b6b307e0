import Verif.PropResolve
import Verif.Api

/-!
# Which syntax nodes definitions and references are recorded at

Every name node of an item gets at most one reference or one definition of the unit's own.
-/

namespace Tic.Api

open Tic.Resolve

def isHere : Target → Bool
  | .here _ => true
  | .other _ => false

/-- how many references, and definitions of this unit's own, are recorded at a node -/
def occ (o : SOut) (k : Nat) : Nat :=
  o.refs.countP (fun r => r.2 == k) + o.defs.countP (fun d => d.node == k && isHere d.sym)

theorem occ_append (a b : SOut) (k : Nat) : occ (a ++ b) k = occ a k + occ b k := by
  simp only [occ, SOut.append_def, List.countP_append]
  omega

theorem occ_nil (k : Nat) : occ ({} : SOut) k = 0 := rfl
theorem occ_oErr (e : ErrKind) (n k : Nat) : occ (oErr e n) k = 0 := rfl
theorem occ_oRef (t : Target) (n k : Nat) : occ (oRef t n) k = [n].count k := by
  simp [occ, oRef, List.count, List.countP_cons]
theorem occ_oDef (n : Name) (kd : Kind Target) (v : Vis) (k : Nat) :
    occ (oDef n kd v) k = [n.node].count k := by
  simp [occ, oDef, isHere, List.count, List.countP_cons]

mutual
/-- the nodes of the names in an expression, used or bound -/
def nodesExpr : Expr → List Nat
  | .name n => optNode n
  | .nsName _ n => optNode n
  | .apply f a => nodesExpr f ++ nodesExpr a
  | .binary f a => nodesExpr f ++ nodesExpr a
  | .letE n ty v r => usesAnn ty ++ (nodesExpr v ++ (optNode n ++ nodesExpr r))
  | .matchE d cs => nodesExpr d ++ nodesCases cs
  | .ifE c t e => nodesExpr c ++ (nodesExpr t ++ nodesExpr e)
  | .lambda n b => optNode n ++ nodesExpr b
  | .paren e => nodesExpr e
  | _ => []
def nodesCases : Cases → List Nat
  | .nil => []
  | .cons _ ctor vars body rest => optNode ctor ++ (vars.map (·.node) ++ (nodesExpr body ++ nodesCases rest))
end

def nodesFields : List FieldSyntax → List Nat
  | [] => []
  | .recur :: fs => nodesFields fs
  | .type t :: fs => usesTy t ++ nodesFields fs

def nodesTypeCases : List CaseSyntax → List Nat
  | [] => []
  | c :: cs => nodesFields c.fields ++ (optNode c.name ++ nodesTypeCases cs)

/-- the nodes of the names in an item (module names in front of a dot excepted) -/
def nodesItem : Item → List Nat
  | .importI _ _ name exposed => optNode name ++ exposed.map (·.node)
  | .typeI _ _ _ name params cases => params.map (·.node) ++ (nodesTypeCases cases ++ optNode name)
  | .valueI _ name ty v => usesAnn ty ++ (optNode name ++ nodesExpr v)

theorem occ_useName (ns : NS) (u : ErrKind) (env : Env) (n : Name) (k : Nat) :
    occ (useName ns u env n).2 k ≤ [n.node].count k := by
  unfold useName
  split
  · exact Nat.le_of_eq (occ_oRef ..)
  · exact Nat.zero_le _

theorem occ_useNs (ns : NS) (env : Env) (m n : Name) (k : Nat) :
    occ (useNs ns env m n).2 k ≤ [n.node].count k := by
  unfold useNs
  split
  · exact Nat.zero_le _
  · split
    · exact Nat.le_of_eq (occ_oRef ..)
    · exact Nat.zero_le _
    · exact Nat.zero_le _

mutual
theorem occ_specTy (env : Env) (k : Nat) : ∀ t, occ (specTy env t).2 k ≤ (usesTy t).count k
  | .int => by simp [specTy, occ_nil]
  | .bool => by simp [specTy, occ_nil]
  | .string => by simp [specTy, occ_nil]
  | .fn a b => by
    simp only [specTy, usesTy, occ_append, List.count_append]
    exact Nat.add_le_add (occ_specTy env k a) (occ_specTy env k b)
  | .named ns name args => by
    simp only [specTy, usesTy, occ_append, List.count_append]
    refine Nat.add_le_add ?_ (occ_specTys env k args)
    match ns, name with
    | some ns, some n => exact occ_useNs ..
    | none, some n => exact occ_useName ..
    | some _, none => exact Nat.zero_le _
    | none, none => exact Nat.zero_le _
  | .paren t => by simp only [specTy, usesTy]; exact occ_specTy env k t
  | .missing => by simp [specTy, occ_nil]
theorem occ_specTys (env : Env) (k : Nat) : ∀ t, occ (specTys env t).2 k ≤ (usesTys t).count k
  | .nil => by simp [specTys, occ_nil]
  | .cons t ts => by
    simp only [specTys, usesTys, occ_append, List.count_append]
    exact Nat.add_le_add (occ_specTy env k t) (occ_specTys env k ts)
end

theorem occ_useTyVar (env : Env) (n : Name) (b : Bool) (k : Nat) :
    occ (useTyVar env n b).2.2.2 k ≤ [n.node].count k := by
  unfold useTyVar
  split
  · exact Nat.le_of_eq (occ_oRef ..)
  · split
    · exact Nat.le_of_eq (occ_oDef ..)
    · exact Nat.zero_le _

mutual
theorem occ_specTyV (k : Nat) : ∀ t env, occ (specTyV env t).out k ≤ (usesTy t).count k
  | .int, env => by simp [specTyV, occ_nil]
  | .bool, env => by simp [specTyV, occ_nil]
  | .string, env => by simp [specTyV, occ_nil]
  | .fn a b, env => by
    simp only [specTyV, usesTy, occ_append, List.count_append]
    exact Nat.add_le_add (occ_specTyV k a _) (occ_specTyV k b _)
  | .named ns name args, env => by
    simp only [specTyV, usesTy, occ_append, List.count_append]
    refine Nat.add_le_add ?_ (occ_specTysV k args _)
    match ns, name with
    | some ns, some n => exact occ_useNs ..
    | none, some n => exact occ_useTyVar ..
    | some _, none => exact Nat.zero_le _
    | none, none => exact Nat.zero_le _
  | .paren t, env => by simp only [specTyV, usesTy]; exact occ_specTyV k t env
  | .missing, env => by simp [specTyV, occ_nil]
theorem occ_specTysV (k : Nat) : ∀ t env, occ (specTysV env t).out k ≤ (usesTys t).count k
  | .nil, env => by simp [specTysV, occ_nil]
  | .cons t ts, env => by
    simp only [specTysV, usesTys, occ_append, List.count_append]
    exact Nat.add_le_add (occ_specTyV k t _) (occ_specTysV k ts _)
end

theorem occ_specAnn (k : Nat) (t : Option Ty) (env : Env) :
    occ (specAnn env t).out k ≤ (usesAnn t).count k := by
  cases t with
  | none => exact Nat.zero_le _
  | some t => exact occ_specTyV k t env

theorem occ_oVars (k : Nat) (ns : List Name) : occ (oVars ns) k = (ns.map (·.node)).count k := by
  induction ns with
  | nil => rfl
  | cons n ns ih =>
    simp only [oVars, occ_append, occ_oDef, ih, List.map_cons]
    rw [← List.count_append]; rfl

theorem occ_oParams (k : Nat) (ns : List Name) : occ (oParams ns) k = (ns.map (·.node)).count k := by
  induction ns with
  | nil => rfl
  | cons n ns ih =>
    simp only [oParams, occ_append, occ_oDef, ih, List.map_cons]
    rw [← List.count_append]; rfl

theorem occ_specCtor (env : Env) (ns c : Option Name) (k : Nat) :
    occ (specCtor env ns c) k ≤ (optNode c).count k := by
  match ns, c with
  | some ns, some n => exact occ_useNs ..
  | none, some n => exact occ_useName ..
  | some _, none => exact Nat.zero_le _
  | none, none => exact Nat.zero_le _

mutual
theorem occ_specExpr (k : Nat) : ∀ e env, occ (specExpr env e) k ≤ (nodesExpr e).count k
  | .name none, env => by simp [specExpr, occ_nil]
  | .name (some n), env => by simp only [specExpr, nodesExpr]; exact occ_useName ..
  | .nsName none n, env => by simp [specExpr, occ_nil]
  | .nsName (some ns) none, env => by simp [specExpr, occ_nil]
  | .nsName (some ns) (some n), env => by simp only [specExpr, nodesExpr]; exact occ_useNs ..
  | .apply f a, env => by
    simp only [specExpr, nodesExpr, occ_append, List.count_append]
    exact Nat.add_le_add (occ_specExpr k f _) (occ_specExpr k a _)
  | .binary f a, env => by
    simp only [specExpr, nodesExpr, occ_append, List.count_append]
    exact Nat.add_le_add (occ_specExpr k f _) (occ_specExpr k a _)
  | .letE none ty v r, env => by
    simp only [specExpr, nodesExpr, occ_append, List.count_append]
    exact Nat.add_le_add (occ_specAnn k ty env)
      (Nat.add_le_add (occ_specExpr k v _) (Nat.le_trans (occ_specExpr k r _) (Nat.le_add_left ..)))
  | .letE (some n) ty v r, env => by
    simp only [specExpr, nodesExpr, occ_append, List.count_append, occ_oDef]
    exact Nat.add_le_add (occ_specAnn k ty env)
      (Nat.add_le_add (occ_specExpr k v _) (Nat.add_le_add (Nat.le_refl _) (occ_specExpr k r _)))
  | .matchE d cs, env => by
    simp only [specExpr, nodesExpr, occ_append, List.count_append]
    exact Nat.add_le_add (occ_specExpr k d _) (occ_specCases k cs _)
  | .ifE c t e, env => by
    simp only [specExpr, nodesExpr, occ_append, List.count_append]
    exact Nat.add_le_add (occ_specExpr k c _)
      (Nat.add_le_add (occ_specExpr k t _) (occ_specExpr k e _))
  | .literal, env => by simp [specExpr, occ_nil]
  | .lambda none b, env => by
    simp only [specExpr, nodesExpr, List.count_append]
    exact Nat.le_trans (occ_specExpr k b _) (Nat.le_add_left ..)
  | .lambda (some n) b, env => by
    simp only [specExpr, nodesExpr, occ_append, occ_oDef, List.count_append]
    exact Nat.add_le_add (Nat.le_refl _) (occ_specExpr k b _)
  | .paren e, env => by simp only [specExpr, nodesExpr]; exact occ_specExpr k e _
  | .hole, env => by simp [specExpr, occ_nil]
  | .missing, env => by simp [specExpr, occ_nil]
theorem occ_specCases (k : Nat) : ∀ cs env, occ (specCases env cs) k ≤ (nodesCases cs).count k
  | .nil, env => by simp [specCases, occ_nil]
  | .cons ns c vars body rest, env => by
    simp only [specCases, nodesCases, occ_append, List.count_append, occ_oVars]
    exact Nat.add_le_add (occ_specCtor ..)
      (Nat.add_le_add (Nat.le_refl _) (Nat.add_le_add (occ_specExpr k body _) (occ_specCases k rest _)))
end

theorem occ_specFields (env : Env) (k : Nat) : ∀ fs, occ (specFields env fs).2 k ≤ (nodesFields fs).count k
  | [] => Nat.zero_le _
  | .recur :: fs => occ_specFields env k fs
  | .type t :: fs => by
    simp only [specFields, nodesFields, occ_append, List.count_append]
    exact Nat.add_le_add (occ_specTy ..) (occ_specFields env k fs)

theorem occ_specTypeCases (env : Env) (ty : Target) (ps : List Target) (v : Vis) (k : Nat) :
    ∀ cs names, occ (specTypeCases env ty ps v cs names).2 k ≤ (nodesTypeCases cs).count k
  | [], _ => Nat.zero_le _
  | ⟨none, fs⟩ :: cs, names => by
    simp only [specTypeCases, nodesTypeCases, occ_append, List.count_append]
    exact Nat.add_le_add (occ_specFields ..)
      (Nat.le_trans (occ_specTypeCases env ty ps v k cs names) (Nat.le_add_left ..))
  | ⟨some n, fs⟩ :: cs, names => by
    simp only [specTypeCases, nodesTypeCases, List.count_append]
    split
    · simp only [occ_append, occ_oErr, Nat.zero_add]
      exact Nat.add_le_add (occ_specFields ..)
        (Nat.le_trans (occ_specTypeCases env ty ps v k cs names) (Nat.le_add_left ..))
    · simp only [occ_append, occ_oDef]
      exact Nat.add_le_add (occ_specFields ..)
        (Nat.add_le_add (Nat.le_refl _) (occ_specTypeCases env ty ps v k cs _))

/-- the item itself, where an import without a name records its module -/
def fakeNode : Item → List Nat
  | .importI node _ none _ => [node]
  | _ => []

theorem getExport_mem {S : Type} {ns : NS} {x : String} {u : List (Export S)} {e : Export S}
    (h : getExport ns x u = some e) : e ∈ u := mem_of_getExport h

theorem exposedDefs_other {me : Nat} {unit : List (Export Sym)} (hf : ∀ e ∈ unit, e.sym.unit ≠ me) (n : Name) :
    ∀ d ∈ exposedDefs (unit.map (·.map (erase me))) n, isHere d.sym = false ∧ d.node = n.node := by
  intro d hd
  simp only [exposedDefs, List.mem_filterMap] at hd
  obtain ⟨ns, -, h⟩ := hd
  obtain ⟨e, he, rfl⟩ := Option.map_eq_some_iff.1 h
  obtain ⟨e', he', rfl⟩ := List.mem_map.1 (mem_of_getExport he)
  simp [Export.map, erase, hf e' he', isHere]

theorem occ_specExpose {me : Nat} {unit : List (Export Sym)} (hf : ∀ e ∈ unit, e.sym.unit ≠ me) (k : Nat) :
    ∀ ns, occ (specExpose (unit.map (·.map (erase me))) ns) k = 0
  | [] => rfl
  | n :: ns => by
    simp only [specExpose, occ_append, occ_specExpose hf k ns, Nat.add_zero]
    split
    · rfl
    · simp only [occ, List.countP_nil, Nat.zero_add, List.countP_eq_zero]
      intro d hd
      simp [(exposedDefs_other hf n d hd).1]

theorem occ_specItem {me : Nat} (env : Env) (i : Item) (hf : ForeignImports me i) (k : Nat) :
    occ (specItem me env i) k ≤ (nodesItem i ++ fakeNode i).count k := by
  match i, hf with
  | .importI node .noPath name exposed, _ => exact Nat.zero_le _
  | .importI node (.failed e m) name exposed, _ => exact Nat.zero_le _
  | .importI node (.ok unit) none exposed, hf =>
    simp only [specItem, specImport, occ_append, occ_specExpose hf, Nat.add_zero, List.count_append, fakeNode]
    refine Nat.le_trans (Nat.le_of_eq ?_) (Nat.le_add_left _ _)
    simp [occ, isHere, List.count, List.countP_cons]
  | .importI node (.ok unit) (some n) exposed, hf =>
    simp only [specItem, specImport, occ_append, occ_specExpose hf, Nat.add_zero, List.count_append, nodesItem,
      optNode, Nat.add_assoc]
    refine Nat.le_trans (Nat.le_of_eq ?_) (Nat.le_add_right _ _)
    simp [occ, isHere, List.count, List.countP_cons]
  | .typeI node ex exc name ps cs, _ =>
    simp only [specItem, specTypeItem, occ_append, occ_oParams, nodesItem, fakeNode, List.append_nil, List.count_append]
    cases name with
    | none => exact Nat.add_le_add (Nat.le_refl _) (Nat.add_le_add (occ_specTypeCases ..) (Nat.zero_le _))
    | some n =>
      exact Nat.add_le_add (Nat.le_refl _) (Nat.add_le_add (occ_specTypeCases ..) (Nat.le_of_eq (occ_oDef ..)))
  | .valueI ex name ty v, _ =>
    simp only [specItem, specValueItem, occ_append, nodesItem, fakeNode, List.append_nil, List.count_append]
    refine Nat.add_le_add (occ_specAnn ..) (Nat.add_le_add ?_ (occ_specExpr ..))
    cases name with
    | none => exact Nat.zero_le _
    | some n => exact Nat.le_of_eq (occ_oDef ..)

/-! ### Definitions of items that are not imports are the unit's own -/

structure Own (o : SOut) : Prop where
  all : ∀ d ∈ o.defs, d.sym = .here d.node ∧ d.hasName = true

theorem Own.append {a b : SOut} (ha : Own a) (hb : Own b) : Own (a ++ b) := by
  refine ⟨fun d hd => ?_⟩
  simp only [SOut.append_def] at hd
  exact (List.mem_append.1 hd).elim (ha.all d) (hb.all d)

theorem Own.none {o : SOut} (h : o.defs = []) : Own o := by
  refine ⟨fun d hd => ?_⟩; rw [h] at hd; cases hd

theorem own_oDef (n : Name) (kd : Kind Target) (v : Vis) : Own (oDef n kd v) := by
  refine ⟨fun d hd => ?_⟩; rw [List.mem_singleton.1 hd]; exact ⟨rfl, rfl⟩

theorem own_useName (ns : NS) (u : ErrKind) (env : Env) (n : Name) : Own (useName ns u env n).2 := by
  unfold useName; split <;> exact .none rfl

theorem own_useNs (ns : NS) (env : Env) (m n : Name) : Own (useNs ns env m n).2 := by
  unfold useNs
  split
  · exact .none rfl
  · split <;> exact .none rfl

mutual
theorem own_specTy (env : Env) : ∀ t, Own (specTy env t).2
  | .int => .none rfl
  | .bool => .none rfl
  | .string => .none rfl
  | .fn a b => by simp only [specTy]; exact (own_specTy env a).append (own_specTy env b)
  | .named ns name args => by
    simp only [specTy]
    refine .append ?_ (own_specTys env args)
    match ns, name with
    | some ns, some n => exact own_useNs ..
    | none, some n => exact own_useName ..
    | some _, none => exact .none rfl
    | none, none => exact .none rfl
  | .paren t => by simp only [specTy]; exact own_specTy env t
  | .missing => .none rfl
theorem own_specTys (env : Env) : ∀ t, Own (specTys env t).2
  | .nil => .none rfl
  | .cons t ts => by simp only [specTys]; exact (own_specTy env t).append (own_specTys env ts)
end

theorem own_useTyVar (env : Env) (n : Name) (b : Bool) : Own (useTyVar env n b).2.2.2 := by
  unfold useTyVar
  split
  · exact .none rfl
  · split
    · exact own_oDef ..
    · exact .none rfl

mutual
theorem own_specTyV : ∀ t env, Own (specTyV env t).out
  | .int, env => .none rfl
  | .bool, env => .none rfl
  | .string, env => .none rfl
  | .fn a b, env => by simp only [specTyV]; exact (own_specTyV a _).append (own_specTyV b _)
  | .named ns name args, env => by
    simp only [specTyV]
    refine .append ?_ (own_specTysV args _)
    match ns, name with
    | some ns, some n => exact own_useNs ..
    | none, some n => exact own_useTyVar ..
    | some _, none => exact .none rfl
    | none, none => exact .none rfl
  | .paren t, env => by simp only [specTyV]; exact own_specTyV t env
  | .missing, env => .none rfl
theorem own_specTysV : ∀ t env, Own (specTysV env t).out
  | .nil, env => .none rfl
  | .cons t ts, env => by simp only [specTysV]; exact (own_specTyV t _).append (own_specTysV ts _)
end

theorem own_specAnn (t : Option Ty) (env : Env) : Own (specAnn env t).out := by
  cases t with
  | none => exact .none rfl
  | some t => exact own_specTyV t env

theorem own_oVars : ∀ (ns : List Name), Own (oVars ns)
  | [] => .none rfl
  | n :: ns => (own_oDef ..).append (own_oVars ns)

theorem own_oParams : ∀ (ns : List Name), Own (oParams ns)
  | [] => .none rfl
  | n :: ns => (own_oDef ..).append (own_oParams ns)

theorem own_specCtor (env : Env) (ns c : Option Name) : Own (specCtor env ns c) := by
  match ns, c with
  | some ns, some n => exact own_useNs ..
  | none, some n => exact own_useName ..
  | some _, none => exact .none rfl
  | none, none => exact .none rfl

mutual
theorem own_specExpr : ∀ e env, Own (specExpr env e)
  | .name none, env => by simp only [specExpr]; exact .none rfl
  | .name (some n), env => by simp only [specExpr]; exact own_useName ..
  | .nsName none n, env => by simp only [specExpr]; exact .none rfl
  | .nsName (some ns) none, env => by simp only [specExpr]; exact .none rfl
  | .nsName (some ns) (some n), env => by simp only [specExpr]; exact own_useNs ..
  | .apply f a, env => by simp only [specExpr]; exact (own_specExpr f _).append (own_specExpr a _)
  | .binary f a, env => by simp only [specExpr]; exact (own_specExpr f _).append (own_specExpr a _)
  | .letE none ty v r, env => by
    simp only [specExpr]
    exact (own_specAnn ty env).append ((own_specExpr v _).append (own_specExpr r _))
  | .letE (some n) ty v r, env => by
    simp only [specExpr]
    exact (own_specAnn ty env).append ((own_specExpr v _).append ((own_oDef ..).append (own_specExpr r _)))
  | .matchE d cs, env => by simp only [specExpr]; exact (own_specExpr d _).append (own_specCases cs _)
  | .ifE c t e, env => by
    simp only [specExpr]; exact (own_specExpr c _).append ((own_specExpr t _).append (own_specExpr e _))
  | .literal, env => by simp only [specExpr]; exact .none rfl
  | .lambda none b, env => by simp only [specExpr]; exact own_specExpr b _
  | .lambda (some n) b, env => by simp only [specExpr]; exact (own_oDef ..).append (own_specExpr b _)
  | .paren e, env => by simp only [specExpr]; exact own_specExpr e _
  | .hole, env => by simp only [specExpr]; exact .none rfl
  | .missing, env => by simp only [specExpr]; exact .none rfl
theorem own_specCases : ∀ cs env, Own (specCases env cs)
  | .nil, env => by simp only [specCases]; exact .none rfl
  | .cons ns c vars body rest, env => by
    simp only [specCases]
    exact (own_specCtor ..).append ((own_oVars vars).append ((own_specExpr body _).append (own_specCases rest _)))
end

theorem own_specFields (env : Env) : ∀ fs, Own (specFields env fs).2
  | [] => .none rfl
  | .recur :: fs => own_specFields env fs
  | .type t :: fs => by simp only [specFields]; exact (own_specTy ..).append (own_specFields env fs)

theorem own_specTypeCases (env : Env) (ty : Target) (ps : List Target) (v : Vis) :
    ∀ cs names, Own (specTypeCases env ty ps v cs names).2
  | [], _ => .none rfl
  | ⟨none, fs⟩ :: cs, names => by
    simp only [specTypeCases]
    exact (own_specFields ..).append (own_specTypeCases env ty ps v cs names)
  | ⟨some n, fs⟩ :: cs, names => by
    simp only [specTypeCases]
    split
    · exact (own_specFields ..).append ((Own.none rfl).append (own_specTypeCases env ty ps v cs names))
    · exact (own_specFields ..).append ((own_oDef ..).append (own_specTypeCases env ty ps v cs _))

def isImport : Item → Bool
  | .importI .. => true
  | _ => false

theorem own_specItem {me : Nat} (env : Env) (i : Item) (hi : isImport i = false) : Own (specItem me env i) := by
  match i, hi with
  | .typeI node ex exc name ps cs, _ =>
    simp only [specItem, specTypeItem]
    refine (own_oParams ps).append ((own_specTypeCases ..).append ?_)
    cases name with
    | none => exact .none rfl
    | some n => exact own_oDef ..
  | .valueI ex name ty v, _ =>
    simp only [specItem, specValueItem]
    refine (own_specAnn ..).append (.append ?_ (own_specExpr ..))
    cases name with
    | none => exact .none rfl
    | some n => exact own_oDef ..

end Tic.Api
