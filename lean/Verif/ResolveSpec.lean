import Verif.Resolve

/-!
# Specification of name resolution

A use of a name refers to a `Target`: the syntax node of a name introduced in this unit, or a symbol of
another unit.  The specification has no symbols to draw and no nested tables: an environment is one
flat list of bindings, the innermost or latest first, and a name means the first binding of its text in
its namespace.
-/

namespace Tic.Resolve

/-- What a name can refer to. -/
inductive Target where
  | here (node : Nat)
  | other (s : Sym)
deriving DecidableEq, Repr

inductive Binding where
  | sym (ns : NS) (text : String) (t : Target)
  | mod (text : String) (exports : List (Export Target))

abbrev Env := List Binding

/-- The first binding of a text in a namespace. -/
def Env.find (ns : NS) (x : String) : Env → Option Target
  | [] => none
  | .sym ns' y t :: r => if ns' = ns ∧ y = x then some t else Env.find ns x r
  | .mod _ _ :: r => Env.find ns x r

def Env.findMod (x : String) : Env → Option (List (Export Target))
  | [] => none
  | .sym _ _ _ :: r => Env.findMod x r
  | .mod y ex :: r => if y = x then some ex else Env.findMod x r

def Env.value (n : Name) (env : Env) : Env := .sym .value n.text (.here n.node) :: env

abbrev SOut := Out Target

instance : Append SOut := ⟨fun a b => ⟨a.defs ++ b.defs, a.refs ++ b.refs, a.errs ++ b.errs⟩⟩

def oRef (t : Target) (node : Nat) : SOut := { refs := [(t, node)] }
def oErr (k : ErrKind) (node : Nat) : SOut := { errs := [⟨k, node⟩] }
/-- a definition made by the name `n` of this unit -/
def oDef (n : Name) (kind : Kind Target) (vis : Vis) : SOut :=
  { defs := [⟨.here n.node, kind, vis, n.node, n.text, true, []⟩] }

/-- One use of a name: what it refers to and what is reported. -/
def useName (ns : NS) (undef : ErrKind) (env : Env) (n : Name) : Option Target × SOut :=
  match env.find ns n.text with
  | some t => (some t, oRef t n.node)
  | none => (none, oErr undef n.node)

/-- One use of a name in a module. -/
def useNs (want : NS) (env : Env) (ns n : Name) : Option Target × SOut :=
  match env.findMod ns.text with
  | none => (none, oErr .undefModule ns.node)
  | some ex =>
    match findExport ex want n.text with
    | .ok e => (some e.sym, oRef e.sym n.node)
    | .noExport => (none, oErr (.notExported n.text) ns.node)
    | .wrongNamespace => (none, oErr (.notA want n.text) n.node)

def mkNamed (s : Option Target) (args : RTys Target) : RTy Target :=
  match s with
  | some s => .named s args
  | none => .error

mutual
/-- types in type declarations: every name must be defined -/
def specTy (env : Env) : Ty → RTy Target × SOut
  | .int => (.int, {})
  | .bool => (.bool, {})
  | .string => (.string, {})
  | .fn a b => (.fn (specTy env a).1 (specTy env b).1, (specTy env a).2 ++ (specTy env b).2)
  | .named ns name args =>
    let u : Option Target × SOut := match ns, name with
      | some ns, some n => useNs .type env ns n
      | none, some n => useName .type .undefType env n
      | _, none => (none, {})
    (mkNamed u.1 (specTys env args).1, u.2 ++ (specTys env args).2)
  | .paren t => specTy env t
  | .missing => (.error, {})
def specTys (env : Env) : Tys → RTys Target × SOut
  | .nil => (.nil, {})
  | .cons t ts => (.cons (specTy env t).1 (specTys env ts).1, (specTy env t).2 ++ (specTys env ts).2)
end

/-- Result of an annotation: its type, the environment with its type variables, those variables in
order of first occurrence, and what is reported. -/
structure Ann where
  ty : RTy Target
  env : Env
  vars : List Target
  out : SOut

structure Anns where
  tys : RTys Target
  env : Env
  vars : List Target
  out : SOut

/-- A plain type name in an annotation: an undefined lowercase name without arguments introduces a
type variable. -/
def useTyVar (env : Env) (n : Name) (noArgs : Bool) : Option Target × Env × List Target × SOut :=
  match env.find .type n.text with
  | some t => (some t, env, [], oRef t n.node)
  | none =>
    if startsLower n.text && noArgs then
      (some (.here n.node), .sym .type n.text (.here n.node) :: env, [.here n.node],
        oDef n (.type 0 true none) .local)
    else (none, env, [], oErr .undefType n.node)

mutual
/-- types in annotations -/
def specTyV (env : Env) : Ty → Ann
  | .int => ⟨.int, env, [], {}⟩
  | .bool => ⟨.bool, env, [], {}⟩
  | .string => ⟨.string, env, [], {}⟩
  | .fn a b =>
    let ra := specTyV env a
    let rb := specTyV ra.env b
    ⟨.fn ra.ty rb.ty, rb.env, ra.vars ++ rb.vars, ra.out ++ rb.out⟩
  | .named ns name args =>
    let u : Option Target × Env × List Target × SOut := match ns, name with
      | some ns, some n => ((useNs .type env ns n).1, env, [], (useNs .type env ns n).2)
      | none, some n => useTyVar env n args.isNil
      | _, none => (none, env, [], {})
    let r := specTysV u.2.1 args
    ⟨mkNamed u.1 r.tys, r.env, u.2.2.1 ++ r.vars, u.2.2.2 ++ r.out⟩
  | .paren t => specTyV env t
  | .missing => ⟨.error, env, [], {}⟩
def specTysV (env : Env) : Tys → Anns
  | .nil => ⟨.nil, env, [], {}⟩
  | .cons t ts =>
    let ra := specTyV env t
    let rb := specTysV ra.env ts
    ⟨.cons ra.ty rb.tys, rb.env, ra.vars ++ rb.vars, ra.out ++ rb.out⟩
end

def specAnn (env : Env) : Option Ty → Ann
  | some t => specTyV env t
  | none => ⟨.infer, env, [], {}⟩

/-- the definitions made by the variables of a pattern -/
def oVars : List Name → SOut
  | [] => {}
  | n :: ns => oDef n (.value .infer []) .local ++ oVars ns

/-- the environment under binders `ns`, listed from the outermost to the innermost -/
def Env.values (ns : List Name) (env : Env) : Env := ns.foldl (fun env n => env.value n) env

def specCtor (env : Env) (ns ctor : Option Name) : SOut :=
  match ns, ctor with
  | some ns, some n => (useNs .pattern env ns n).2
  | none, some n => (useName .pattern .undefCtor env n).2
  | _, none => {}

mutual
def specExpr (env : Env) : Expr → SOut
  | .name (some n) => (useName .value .undefVar env n).2
  | .name none => {}
  | .nsName (some ns) (some n) => (useNs .value env ns n).2
  | .nsName _ _ => {}
  | .apply f a => specExpr env f ++ specExpr env a
  | .binary l r => specExpr env l ++ specExpr env r
  | .letE (some n) ty v r =>
    let a := specAnn env ty
    a.out ++ (specExpr a.env v ++ (oDef n (.value a.ty a.vars) .local ++ specExpr (env.value n) r))
  | .letE none ty v r =>
    let a := specAnn env ty
    a.out ++ (specExpr a.env v ++ specExpr env r)
  | .matchE d cs => specExpr env d ++ specCases env cs
  | .ifE c t e => specExpr env c ++ (specExpr env t ++ specExpr env e)
  | .literal => {}
  | .lambda (some n) b => oDef n (.value .infer []) .local ++ specExpr (env.value n) b
  | .lambda none b => specExpr env b
  | .paren e => specExpr env e
  | .hole => {}
  | .missing => {}
def specCases (env : Env) : Cases → SOut
  | .nil => {}
  | .cons ns ctor vars body rest =>
    specCtor env ns ctor ++ (oVars vars ++ (specExpr (env.values vars) body ++ specCases env rest))
end

/-! ### Items -/

def specValueItem (env : Env) (exported : Bool) (name : Option Name) (ty : Option Ty) (v : Expr) :
    SOut :=
  let a := specAnn env ty
  a.out ++ ((match name with
    | some n => oDef n (.value a.ty a.vars) (if exported then .export else .module)
    | none => {}) ++ specExpr a.env v)

/-- type parameters are in scope in the cases -/
def Env.params (ns : List Name) (env : Env) : Env :=
  ns.foldl (fun env n => .sym .type n.text (.here n.node) :: env) env

def oParams : List Name → SOut
  | [] => {}
  | n :: ns => oDef n (.type 0 true none) .local ++ oParams ns

def specFields (env : Env) : List FieldSyntax → List (Field Target) × SOut
  | [] => ([], {})
  | .recur :: fs => (.recur :: (specFields env fs).1, (specFields env fs).2)
  | .type t :: fs =>
    (.type (specTy env t).1 :: (specFields env fs).1, (specTy env t).2 ++ (specFields env fs).2)

/-- The cases of a type: the first case of each name defines a constructor; the symbols of the
constructors and what is reported.  `names` are the names seen before. -/
def specTypeCases (env : Env) (ty : Target) (params : List Target) (vis : Vis) :
    List CaseSyntax → List String → List Target × SOut
  | [], _ => ([], {})
  | c :: cs, names =>
    let f := specFields env c.fields
    match c.name with
    | none =>
      let r := specTypeCases env ty params vis cs names
      (r.1, f.2 ++ r.2)
    | some n =>
      if n.text ∈ names then
        let r := specTypeCases env ty params vis cs names
        (r.1, f.2 ++ (oErr (.dupCtor n.text) n.node ++ r.2))
      else
        let r := specTypeCases env ty params vis cs (names ++ [n.text])
        (.here n.node :: r.1, f.2 ++ (oDef n (.ctor ty params f.1
          (ctorFnTy (.named ty (namedAll params)) f.1)) vis ++ r.2))

def specTypeItem (env : Env) (node : Nat) (exported exportCases : Bool) (name : Option Name)
    (params : List Name) (cases : List CaseSyntax) : SOut :=
  let ps := params.map fun n => Target.here n.node
  let r := specTypeCases (env.params params) (.here (typeTag node name)) ps
    (if exportCases then .export else .module) cases []
  oParams params ++ (r.2 ++ (match name with
    | some n => oDef n (.type params.length false (some r.1)) (if exported then .export else .module)
    | none => {}))

/-- the definitions an exposed name makes, one for every namespace it is exported in -/
def exposedDefs (unit : List (Export Target)) (n : Name) : List (Def Target) :=
  [NS.value, NS.type, NS.pattern, NS.module].filterMap fun ns =>
    (getExport ns n.text unit).map fun e => ⟨e.sym, e.kind, .module, n.node, n.text, true, []⟩

def specExpose (unit : List (Export Target)) : List Name → SOut
  | [] => {}
  | n :: ns =>
    (if exposedDefs unit n = [] then oErr (.notExported n.text) n.node
     else ({ defs := exposedDefs unit n } : SOut)) ++ specExpose unit ns

/-! ### From symbols to targets -/

/-- The target a symbol stands for, for the unit `me`. -/
def erase (me : Nat) (s : Sym) : Target := if s.unit = me then .here s.tag else .other s

mutual
def RTy.map {S T : Type} (f : S → T) : RTy S → RTy T
  | .int => .int
  | .bool => .bool
  | .string => .string
  | .fn a b => .fn (a.map f) (b.map f)
  | .named s args => .named (f s) (args.map f)
  | .error => .error
  | .infer => .infer
def RTys.map {S T : Type} (f : S → T) : RTys S → RTys T
  | .nil => .nil
  | .cons t ts => .cons (t.map f) (ts.map f)
end

def Field.map {S T : Type} (f : S → T) : Field S → Field T
  | .recur => .recur
  | .type t => .type (t.map f)

def Kind.map {S T : Type} (f : S → T) : Kind S → Kind T
  | .value ty vars => .value (ty.map f) (vars.map f)
  | .ctor s ps fs ty => .ctor (f s) (ps.map f) (fs.map (·.map f)) (ty.map f)
  | .type n v cs => .type n v (cs.map (·.map f))
  | .module => .module

def Export.map {S T : Type} (f : S → T) (e : Export S) : Export T :=
  ⟨e.ns, e.text, f e.sym, e.kind.map f⟩

def Def.map {S T : Type} (f : S → T) (d : Def S) : Def T :=
  ⟨f d.sym, d.kind.map f, d.vis, d.node, d.text, d.hasName, d.unit.map (·.map f)⟩

def Out.map {S T : Type} (f : S → T) (o : Out S) : Out T :=
  ⟨o.defs.map (·.map f), o.refs.map (fun r => (f r.1, r.2)), o.errs⟩

def specImport (me node : Nat) (result : ImportResult) (name : Option Name) (exposed : List Name) :
    SOut :=
  match result with
  | .noPath => {}
  | .failed k node => oErr k node
  | .ok unit =>
    let unit := unit.map (·.map (erase me))
    (match name with
      | some n => ({ defs := [⟨.here n.node, .module, .module, n.node, n.text, true, unit⟩] } : SOut)
      | none => { defs := [⟨.here node, .module, .module, node, "", false, unit⟩] }) ++
    specExpose unit exposed

def specItem (me : Nat) (env : Env) : Item → SOut
  | .importI node result name exposed => specImport me node result name exposed
  | .typeI node ex exc name params cases => specTypeItem env node ex exc name params cases
  | .valueI ex name ty v => specValueItem env ex name ty v

/-- The bindings a definition makes for the items after it: none for a local or nameless one. -/
def bindingsOf (d : Def Target) : List Binding :=
  if d.vis = .local ∨ d.hasName = false then [] else
  match d.kind with
  | .value .. => [.sym .value d.text d.sym]
  | .ctor .. => [.sym .value d.text d.sym, .sym .pattern d.text d.sym]
  | .type .. => [.sym .type d.text d.sym]
  | .module => [.mod d.text d.unit]

/-- The environment after definitions `ds` (in order): the latest first. -/
def Env.after (ds : List (Def Target)) (env : Env) : Env := ds.reverse.flatMap bindingsOf ++ env

/-- A unit: each item sees the definitions of the items before it, and no others. -/
def specUnit (me : Nat) : List Item → Env → List SOut
  | [], _ => []
  | i :: is, env => specItem me env i :: specUnit me is (env.after (specItem me env i).defs)

end Tic.Resolve
