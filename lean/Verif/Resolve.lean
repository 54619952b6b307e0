/-!
# Name resolution

Models `ticc/src/compiler/resolve.rs` (all of it except the `on_name` callbacks, which the resolver's
sink ignores, `resolve.rs:74`), `Scope` (`ticc/src/compiler.rs:15-99`), `collect_exports`
(`ticc/src/import.rs:5-28`) and `find_export` (`ticc/src/lib.rs:180-200`).

Simplifications.  A name token is its text and the id of its syntax node (the span is a function of
the node).  Hash maps are association lists with the newest insertion in front, read front to back.
`Symbol::fresh` (`ir.rs`) draws from one process-wide counter; here a symbol is the unit that drew it,
its number among the symbols of that unit, and a ghost tag recording the syntax node it was drawn
for.  Nothing in the model reads the tag.
-/

namespace Tic.Resolve

/-- A name token with its node (`node::Name`). -/
structure Name where
  text : String
  node : Nat
deriving DecidableEq, Repr

/-! ## Syntax trees, as the accessors of `ticc/src/compiler/syntax.rs` present them -/

mutual
/-- `node::Type`; `missing` stands for an absent child and for `Type::Err`. -/
inductive Ty where
  | int | bool | string
  | fn (a b : Ty)
  | named (ns : Option Name) (name : Option Name) (args : Tys)
  | paren (t : Ty)
  | missing
inductive Tys where
  | nil
  | cons (t : Ty) (ts : Tys)
end

mutual
/-- `node::Expr`; `missing` stands for an absent child. -/
inductive Expr where
  | name (n : Option Name)
  | nsName (ns n : Option Name)
  | apply (f a : Expr)
  | binary (l r : Expr)
  | letE (name : Option Name) (ty : Option Ty) (value rest : Expr)
  | matchE (discr : Expr) (cases : Cases)
  | ifE (c t e : Expr)
  | literal
  | lambda (param : Option Name) (body : Expr)
  | paren (e : Expr)
  | hole
  | missing
/-- the cases of a `match` (`node::MatchCase`) -/
inductive Cases where
  | nil
  | cons (ns ctor : Option Name) (vars : List Name) (body : Expr) (rest : Cases)
end

/-! ## Resolved program parts, over any type of symbols -/

mutual
/-- `ir::Type` (`ticc/src/compiler/ir.rs`), as far as the resolver produces it. -/
inductive RTy (S : Type) where
  | int | bool | string
  | fn (a b : RTy S)
  | named (s : S) (args : RTys S)
  | error
  | infer
inductive RTys (S : Type) where
  | nil
  | cons (t : RTy S) (ts : RTys S)
end

/-- `ir::Visibility` -/
inductive Vis where
  | local | module | export
deriving DecidableEq, Repr

/-- `ir::Field` -/
inductive Field (S : Type) where
  | recur
  | type (t : RTy S)

/-- The four namespaces (`ticc/src/lib.rs:215-224`); `pattern` is where constructors live. -/
inductive NS where
  | value | type | pattern | module
deriving DecidableEq, Repr

/-- `ir::DefKind` without modules, whose payload is kept apart (`Def.unit`). -/
inductive Kind (S : Type) where
  | value (ty : RTy S) (vars : List S)
  | ctor (type : S) (params : List S) (fields : List (Field S)) (fnTy : RTy S)
  | type (params : Nat) (isVar : Bool) (ctors : Option (List S))
  | module

/-- The exports of a complete unit: namespace, name, symbol and kind (`lib.rs:172-178`).  Modules are
never exported (`resolve.rs:128-149` gives them `Visibility::Module`), so there is no unit here. -/
structure Export (S : Type) where
  ns : NS
  text : String
  sym : S
  kind : Kind S

/-- `ir::Def`; `unit` is the payload of `DefKind::Module`. -/
structure Def (S : Type) where
  sym : S
  kind : Kind S
  vis : Vis
  node : Nat
  text : String
  hasName : Bool
  unit : List (Export S) := []

/-- Which diagnostic (`resolve.rs`, the `err_fmt!` texts). -/
inductive ErrKind where
  | noModule | importCycle | importIo
  | notExported (name : String)
  | notA (ns : NS) (name : String)
  | undefModule | undefType | undefVar | undefCtor
  | dupCtor (name : String)
deriving DecidableEq, Repr

/-- a diagnostic and the node whose span it is reported at -/
structure Err where
  kind : ErrKind
  node : Nat
deriving DecidableEq, Repr

/-- What resolving an item records: `item.defs`, `item.refs`, `item.diagnostics`. -/
structure Out (S : Type) where
  defs : List (Def S) := []
  refs : List (S × Nat) := []
  errs : List Err := []

/-! ## Symbols -/

/-- `ir::Symbol`; `tag` is a ghost. -/
structure Sym where
  unit : Nat
  idx : Nat
  tag : Nat
deriving DecidableEq, Repr

/-- The state of the resolver: the symbol counter and the sink. -/
structure St where
  next : Nat := 0
  out : Out Sym := {}

/-- `ir::Symbol::fresh` -/
def St.fresh (st : St) (me tag : Nat) : Sym × St :=
  (⟨me, st.next, tag⟩, { st with next := st.next + 1 })

/-- `record_def` (`resolve.rs:62-64`) -/
def St.def_ (st : St) (d : Def Sym) : St := { st with out := { st.out with defs := st.out.defs ++ [d] } }
/-- `record_ref` (`resolve.rs:66-68`) -/
def St.ref (st : St) (s : Sym) (node : Nat) : St :=
  { st with out := { st.out with refs := st.out.refs ++ [(s, node)] } }
/-- `record_error` (`resolve.rs:70-72`) -/
def St.err (st : St) (k : ErrKind) (node : Nat) : St :=
  { st with out := { st.out with errs := st.out.errs ++ [⟨k, node⟩] } }

/-! ## Scopes (`ticc/src/compiler.rs:15-99`) -/

/-- One `Scope` without its parent pointer. -/
structure Frame where
  values : List (String × Sym) := []
  types : List (String × Sym) := []
  ctors : List (String × Sym) := []
  modules : List (String × List (Export Sym)) := []

/-- A scope with its chain of parents, innermost first. -/
abbrev Scope := List Frame

/-- `HashMap::get` -/
def get {α : Type} (x : String) : List (String × α) → Option α
  | [] => none
  | (y, a) :: r => if y = x then some a else get x r

/-- `Scope::lookup_value` (`compiler.rs:61-69`) -/
def Scope.lookupValue (x : String) : Scope → Option Sym
  | [] => none
  | f :: r => match get x f.values with
    | some s => some s
    | none => Scope.lookupValue x r
/-- `Scope::lookup_type` (`compiler.rs:71-79`) -/
def Scope.lookupType (x : String) : Scope → Option Sym
  | [] => none
  | f :: r => match get x f.types with
    | some s => some s
    | none => Scope.lookupType x r
/-- `Scope::lookup_ctor` (`compiler.rs:81-89`) -/
def Scope.lookupCtor (x : String) : Scope → Option Sym
  | [] => none
  | f :: r => match get x f.ctors with
    | some s => some s
    | none => Scope.lookupCtor x r
/-- `Scope::lookup_module` (`compiler.rs:91-99`) -/
def Scope.lookupModule (x : String) : Scope → Option (List (Export Sym))
  | [] => none
  | f :: r => match get x f.modules with
    | some s => some s
    | none => Scope.lookupModule x r

/-- `Scope::with_parent` (`compiler.rs:29-34`) -/
def Scope.child (s : Scope) : Scope := {} :: s

/-- `scope.values.insert(..)` on the innermost scope -/
def Scope.insertValue (x : String) (s : Sym) : Scope → Scope
  | [] => [{ values := [(x, s)] }]
  | f :: r => { f with values := (x, s) :: f.values } :: r
/-- `scope.types.insert(..)` -/
def Scope.insertType (x : String) (s : Sym) : Scope → Scope
  | [] => [{ types := [(x, s)] }]
  | f :: r => { f with types := (x, s) :: f.types } :: r
/-- `scope.ctors.insert(..)` -/
def Scope.insertCtor (x : String) (s : Sym) : Scope → Scope
  | [] => [{ ctors := [(x, s)] }]
  | f :: r => { f with ctors := (x, s) :: f.ctors } :: r
/-- `scope.modules.insert(..)` -/
def Scope.insertModule (x : String) (u : List (Export Sym)) : Scope → Scope
  | [] => [{ modules := [(x, u)] }]
  | f :: r => { f with modules := (x, u) :: f.modules } :: r

/-- `Scope::add_item` (`compiler.rs:36-59`) with `include_local = false`, one definition. -/
def Scope.addDef (s : Scope) (d : Def Sym) : Scope :=
  if d.vis = .local then s
  else if d.hasName = false then s
  else match d.kind with
    | .value .. => s.insertValue d.text d.sym
    | .ctor .. => (s.insertCtor d.text d.sym).insertValue d.text d.sym
    | .type .. => s.insertType d.text d.sym
    | .module => s.insertModule d.text d.unit

/-- `Scope::add_item` -/
def Scope.addItem (s : Scope) (defs : List (Def Sym)) : Scope := defs.foldl Scope.addDef s

/-! ## Exports -/

/-- The namespaces an exported definition is entered in (`import.rs:10-15`). -/
def Kind.namespaces {S : Type} : Kind S → List NS
  | .value .. => [.value]
  | .ctor .. => [.pattern, .value]
  | .type .. => [.type]
  | .module => [.module]

/-- `collect_exports` (`import.rs:5-28`): newest insertion first. -/
def collectExports {S : Type} (defs : List (Def S)) : List (Export S) :=
  defs.foldl (fun ex d =>
    if d.vis = .export then
      d.kind.namespaces.foldl (fun ex ns => ⟨ns, d.text, d.sym, d.kind⟩ :: ex) ex
    else ex) []

/-- `exports.get(&NamespacedName { .. })` -/
def getExport {S : Type} (ns : NS) (x : String) : List (Export S) → Option (Export S)
  | [] => none
  | e :: r => if e.ns = ns ∧ e.text = x then some e else getExport ns x r

/-- Result of `find_export` -/
inductive Found (S : Type) where
  | ok (e : Export S)
  | noExport
  | wrongNamespace

/-- `find_export` (`lib.rs:180-200`) -/
def findExport {S : Type} (ex : List (Export S)) (ns : NS) (x : String) : Found S :=
  match getExport ns x ex with
  | some e => .ok e
  | none =>
    if [NS.value, NS.type, NS.pattern, NS.module].any (fun ns => (getExport ns x ex).isSome)
    then .wrongNamespace else .noExport

/-! ## Uses -/

/-- A use `ns.name` (`resolve.rs:321-357`, `:411-447`, `:544-578`, `:678-710`, which are the same up to
the namespace). -/
def resolveNs (want : NS) (scope : Scope) (ns name : Name) (st : St) : Option Sym × St :=
  match scope.lookupModule ns.text with
  | some ex =>
    match findExport ex want name.text with
    | .ok e => (some e.sym, st.ref e.sym name.node)
    | .noExport => (none, st.err (.notExported name.text) ns.node)
    | .wrongNamespace => (none, st.err (.notA want name.text) name.node)
  | none => (none, st.err .undefModule ns.node)

/-! ## Types -/

mutual
/-- `resolve_type` (`resolve.rs:301-389`) -/
def resolveTy (scope : Scope) : Ty → St → RTy Sym × St
  | .int, st => (.int, st)
  | .bool, st => (.bool, st)
  | .string, st => (.string, st)
  | .fn a b, st =>
    let (ra, st) := resolveTy scope a st
    let (rb, st) := resolveTy scope b st
    (.fn ra rb, st)
  | .named ns name args, st =>
    let (s, st) : Option Sym × St := match ns, name with
      | some ns, some name => resolveNs .type scope ns name st
      | none, some name =>
        match scope.lookupType name.text with
        | some s => (some s, st.ref s name.node)
        | none => (none, st.err .undefType name.node)
      | _, none => (none, st)
    let (ras, st) := resolveTys scope args st
    (match s with
      | some s => .named s ras
      | none => .error, st)
  | .paren t, st => resolveTy scope t st
  | .missing, st => (.error, st)
/-- the loop at `resolve.rs:374-378` -/
def resolveTys (scope : Scope) : Tys → St → RTys Sym × St
  | .nil, st => (.nil, st)
  | .cons t ts, st =>
    let (r, st) := resolveTy scope t st
    let (rs, st) := resolveTys scope ts st
    (.cons r rs, st)
end

/-- `name.chars().next().unwrap().is_ascii_lowercase()` (`resolve.rs:453`) -/
def startsLower (x : String) : Bool :=
  match x.toList with
  | c :: _ => decide ('a' ≤ c ∧ c ≤ 'z')
  | [] => false

/-- `ty.type_args().next().is_none()` -/
def Tys.isNil : Tys → Bool
  | .nil => true
  | .cons .. => false

/-- State of `resolve_type_with_vars`: the scope it extends and the variables found so far. -/
structure VSt where
  scope : Scope
  vars : List Sym
  st : St

mutual
/-- `resolve_type_with_vars` (`resolve.rs:391-495`) -/
def resolveTyV (me : Nat) : Ty → VSt → RTy Sym × VSt
  | .int, v => (.int, v)
  | .bool, v => (.bool, v)
  | .string, v => (.string, v)
  | .fn a b, v =>
    let (ra, v) := resolveTyV me a v
    let (rb, v) := resolveTyV me b v
    (.fn ra rb, v)
  | .named ns name args, v =>
    let (s, v) : Option Sym × VSt := match ns, name with
      | some ns, some name =>
        let (s, st) := resolveNs .type v.scope ns name v.st
        (s, { v with st })
      | none, some name =>
        match v.scope.lookupType name.text with
        | some s => (some s, { v with st := v.st.ref s name.node })
        | none =>
          if startsLower name.text && args.isNil then
            let (s, st) := v.st.fresh me name.node
            let st := st.def_ ⟨s, .type 0 true none, .local, name.node, name.text, true, []⟩
            (some s, ⟨v.scope.insertType name.text s, v.vars ++ [s], st⟩)
          else (none, { v with st := v.st.err .undefType name.node })
      | _, none => (none, v)
    let (ras, v) := resolveTysV me args v
    (match s with
      | some s => .named s ras
      | none => .error, v)
  | .paren t, v => resolveTyV me t v
  | .missing, v => (.error, v)
def resolveTysV (me : Nat) : Tys → VSt → RTys Sym × VSt
  | .nil, v => (.nil, v)
  | .cons t ts, v =>
    let (r, v) := resolveTyV me t v
    let (rs, v) := resolveTysV me ts v
    (.cons r rs, v)
end

/-- an optional annotation (`resolve.rs:500-504`, `:599-603`) -/
def resolveAnn (me : Nat) (ty : Option Ty) (v : VSt) : RTy Sym × VSt :=
  match ty with
  | some ty => resolveTyV me ty v
  | none => (.infer, v)

/-! ## Expressions -/

/-- Binds a name to a new local value (`resolve.rs:607-621`, `:649-663`, `:727-740`). -/
def bindLocal (me : Nat) (name : Name) (ty : RTy Sym) (vars : List Sym) (scope : Scope) (st : St) :
    Scope × St :=
  let (s, st) := st.fresh me name.node
  (scope.insertValue name.text s,
   st.def_ ⟨s, .value ty vars, .local, name.node, name.text, true, []⟩)

/-- an optional bound name -/
def bindOpt (me : Nat) (name : Option Name) (ty : RTy Sym) (vars : List Sym) (scope : Scope)
    (st : St) : Scope × St :=
  match name with
  | some name => bindLocal me name ty vars scope st
  | none => (scope, st)

/-- the variables of a match case, in order (`resolve.rs:725-741`) -/
def bindVars (me : Nat) : List Name → Scope → St → Scope × St
  | [], scope, st => (scope, st)
  | n :: ns, scope, st =>
    let (scope, st) := bindLocal me n .infer [] scope st
    bindVars me ns scope st

/-- the constructor of a match case (`resolve.rs:677-724`) -/
def resolveCtor (scope : Scope) (ns ctor : Option Name) (st : St) : St :=
  match ns, ctor with
  | some ns, some name => (resolveNs .pattern scope ns name st).2
  | none, some name =>
    match scope.lookupCtor name.text with
    | some s => st.ref s name.node
    | none => st.err .undefCtor name.node
  | _, none => st

mutual
/-- `resolve_expr` (`resolve.rs:528-674`) -/
def resolveExpr (me : Nat) : Expr → Scope → St → St
  | .name n, scope, st =>
    match n with
    | some name =>
      match scope.lookupValue name.text with
      | some s => st.ref s name.node
      | none => st.err .undefVar name.node
    | none => st
  | .nsName ns n, scope, st =>
    match ns, n with
    | some ns, some n => (resolveNs .value scope ns n st).2
    | _, _ => st
  | .apply f a, scope, st => resolveExpr me a scope (resolveExpr me f scope st)
  | .binary l r, scope, st => resolveExpr me r scope (resolveExpr me l scope st)
  | .letE name ty value rest, scope, st =>
    let scope := scope.child
    let (rty, v) := resolveAnn me ty ⟨scope.child, [], st⟩
    let st := resolveExpr me value v.scope v.st
    let (scope, st) := bindOpt me name rty v.vars scope st
    resolveExpr me rest scope st
  | .matchE d cases, scope, st => resolveCases me cases scope (resolveExpr me d scope st)
  | .ifE c t e, scope, st =>
    resolveExpr me e scope (resolveExpr me t scope (resolveExpr me c scope st))
  | .literal, _, st => st
  | .lambda p body, scope, st =>
    let (scope, st) := bindOpt me p .infer [] scope.child st
    resolveExpr me body scope st
  | .paren e, scope, st => resolveExpr me e scope st
  | .hole, _, st => st
  | .missing, _, st => st
/-- `resolve_match_case` (`resolve.rs:676-745`) for each case -/
def resolveCases (me : Nat) : Cases → Scope → St → St
  | .nil, _, st => st
  | .cons ns ctor vars body rest, scope, st =>
    let st := resolveCtor scope ns ctor st
    let (inner, st) := bindVars me vars scope.child st
    let st := resolveExpr me body inner st
    resolveCases me rest scope st
end

/-! ## Items -/

/-- the field of a type case (`resolve.rs:243-254`) -/
inductive FieldSyntax where
  | recur
  | type (t : Ty)

structure CaseSyntax where
  name : Option Name
  fields : List FieldSyntax

/-- what importing the path of an import item gave (`resolve.rs:92-127`) -/
inductive ImportResult where
  | noPath
  | ok (unit : List (Export Sym))
  | failed (k : ErrKind) (node : Nat)

/-- `node::Item` -/
inductive Item where
  | importI (node : Nat) (result : ImportResult) (name : Option Name) (exposed : List Name)
  | typeI (node : Nat) (exported exportCases : Bool) (name : Option Name) (params : List Name)
      (cases : List CaseSyntax)
  | valueI (exported : Bool) (name : Option Name) (ty : Option Ty) (value : Expr)

/-- the four lookups for one exposed name (`resolve.rs:153-166`) -/
def expose (unit : List (Export Sym)) (name : Name) : List NS → Bool × St → Bool × St
  | [], r => r
  | ns :: rest, (found, st) =>
    match findExport unit ns name.text with
    | .ok e => expose unit name rest
        (true, st.def_ ⟨e.sym, e.kind, .module, name.node, name.text, true, []⟩)
    | _ => expose unit name rest (found, st)

/-- the exposed list (`resolve.rs:151-175`) -/
def exposeAll (unit : List (Export Sym)) : List Name → St → St
  | [], st => st
  | n :: ns, st =>
    let (found, st) := expose unit n [.value, .type, .pattern, .module] (false, st)
    exposeAll unit ns (if found then st else st.err (.notExported n.text) n.node)

/-- `resolve_import_item` (`resolve.rs:91-176`) -/
def resolveImport (me node : Nat) (result : ImportResult) (name : Option Name)
    (exposed : List Name) (st : St) : St :=
  match result with
  | .noPath => st
  | .failed k node => st.err k node
  | .ok unit =>
    let st := match name with
      | some name =>
        let (s, st) := st.fresh me name.node
        st.def_ ⟨s, .module, .module, name.node, name.text, true, unit⟩
      | none =>
        let (s, st) := st.fresh me node
        st.def_ ⟨s, .module, .module, node, "", false, unit⟩
    exposeAll unit exposed st

/-- type parameters (`resolve.rs:181-200`) -/
def bindParams (me : Nat) : List Name → Scope → St → Scope × List Sym × St
  | [], scope, st => (scope, [], st)
  | n :: ns, scope, st =>
    let (s, st) := st.fresh me n.node
    let st := st.def_ ⟨s, .type 0 true none, .local, n.node, n.text, true, []⟩
    let (scope, ss, st) := bindParams me ns (scope.insertType n.text s) st
    (scope, s :: ss, st)

/-- fields of a case (`resolve.rs:242-254`) -/
def resolveFields (scope : Scope) : List FieldSyntax → St → List (Field Sym) × St
  | [], st => ([], st)
  | .recur :: fs, st =>
    let (r, st) := resolveFields scope fs st
    (.recur :: r, st)
  | .type t :: fs, st =>
    let (rt, st) := resolveTy scope t st
    let (r, st) := resolveFields scope fs st
    (.type rt :: r, st)

/-- `param_symbols.iter().map(|&s| Type::Named(s, Vec::new()))` (`resolve.rs:267-270`) -/
def namedAll {S : Type} : List S → RTys S
  | [] => .nil
  | s :: ss => .cons (.named s .nil) (namedAll ss)

/-- the constructor's function type (`resolve.rs:267-281`) -/
def ctorFnTy {S : Type} (whole : RTy S) : List (Field S) → RTy S
  | [] => whole
  | .recur :: fs => .fn whole (ctorFnTy whole fs)
  | .type t :: fs => .fn t (ctorFnTy whole fs)

/-- `resolve_type_case` (`resolve.rs:232-299`) for each case; `names` is `ctor_names`. -/
def resolveTypeCases (me : Nat) (scope : Scope) (tySym : Sym) (params : List Sym) (vis : Vis) :
    List CaseSyntax → List String → St → List Sym × St
  | [], _, st => ([], st)
  | c :: cs, names, st =>
    let (fields, st) := resolveFields scope c.fields st
    match c.name with
    | none => resolveTypeCases me scope tySym params vis cs names st
    | some n =>
      if n.text ∈ names then
        resolveTypeCases me scope tySym params vis cs names (st.err (.dupCtor n.text) n.node)
      else
        let (s, st) := st.fresh me n.node
        let whole : RTy Sym := .named tySym (namedAll params)
        let st := st.def_
          ⟨s, .ctor tySym params fields (ctorFnTy whole fields), vis, n.node, n.text, true, []⟩
        let (ss, st) := resolveTypeCases me scope tySym params vis cs (names ++ [n.text]) st
        (s :: ss, st)

/-- the node a type's symbol is drawn for: its name, or the item (ghost) -/
def typeTag (node : Nat) : Option Name → Nat
  | some n => n.node
  | none => node

/-- `resolve_type_item` (`resolve.rs:178-230`) -/
def resolveTypeItem (me node : Nat) (exported exportCases : Bool) (name : Option Name)
    (params : List Name) (cases : List CaseSyntax) (scope : Scope) (st : St) : St :=
  let (tySym, st) := st.fresh me (typeTag node name)
  let (scope, ps, st) := bindParams me params scope.child st
  let vis := if exportCases then Vis.export else Vis.module
  let (ctors, st) := resolveTypeCases me scope tySym ps vis cases [] st
  match name with
  | some n => st.def_ ⟨tySym, .type ps.length false (some ctors),
      if exported then .export else .module, n.node, n.text, true, []⟩
  | none => st

/-- `resolve_value_item` (`resolve.rs:497-526`) -/
def resolveValueItem (me : Nat) (exported : Bool) (name : Option Name) (ty : Option Ty)
    (value : Expr) (scope : Scope) (st : St) : St :=
  let (rty, v) := resolveAnn me ty ⟨scope.child, [], st⟩
  let st := match name with
    | some n =>
      let (s, st) := v.st.fresh me n.node
      st.def_ ⟨s, .value rty v.vars, if exported then .export else .module, n.node, n.text, true, []⟩
    | none => v.st
  resolveExpr me value v.scope st

/-- `resolve_item` (`resolve.rs:77-89`) -/
def resolveItem (me : Nat) (scope : Scope) (st : St) : Item → St
  | .importI node result name exposed => resolveImport me node result name exposed st
  | .typeI node ex exc name params cases => resolveTypeItem me node ex exc name params cases scope st
  | .valueI ex name ty value => resolveValueItem me ex name ty value scope st

/-- The items of a unit in order: each is resolved in the scope of the previous ones and then added
to it (`ticc/src/lib.rs:108-131`).  Returns what each item recorded. -/
def resolveUnit (me : Nat) : List Item → Scope → Nat → List (Out Sym)
  | [], _, _ => []
  | i :: is, scope, next =>
    let st := resolveItem me scope { next } i
    st.out :: resolveUnit me is (scope.addItem st.out.defs) st.next

end Tic.Resolve
