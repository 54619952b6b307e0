import Verif.Api

/-!
# Completions

Models `ticc/src/api/completion.rs` and the `on_name` callbacks of the resolver
(`ticc/src/compiler/resolve.rs:322-324`, `:347`, `:356`, `:412-414`, `:437`, `:446`, `:532`, `:546-548`,
`:570`, `:679-681`, `:703`, `:712`), which `Verif.Resolve` leaves out.

Simplifications.  The callbacks are listed by functions of their own that walk an item the way the
resolver does and take scopes and states from it.  The item as parsed again with the temporary
identifier in it, and the spans of its nodes, are parameters.  Symbols are drawn from 0; nothing here
reads a symbol.  The position is on a character boundary.
-/

namespace Tic.Resolve

/-- `resolve::Namespace` -/
inductive Space where
  | none
  | module (exports : List (Export Sym))
  | unresolved

/-- The arguments of a call of `on_name`; `usage` is `NameUsage` (`pattern` for `Ctor`). -/
structure Ev where
  node : Nat
  usage : NS
  scope : Scope
  space : Space

/-- the two calls for `ns.name` (`resolve.rs:322-347`, `:412-437`, `:546-570`, `:679-703`) -/
def namesNs (usage : NS) (scope : Scope) (ns name : Name) : List Ev :=
  [⟨ns.node, .module, scope, .none⟩,
   match scope.lookupModule ns.text with
   | some ex => ⟨name.node, usage, scope, .module ex⟩
   | none => ⟨name.node, usage, scope, .unresolved⟩]

/-- the calls for the name of a type (`resolve.rs:320-371`, `:410-477`); after `ns.` the usage is
`NameUsage::Value` (`:324`, `:414`). -/
def namesTyName (scope : Scope) (ns name : Option Name) : List Ev :=
  match ns, name with
  | some ns, some name => namesNs .value scope ns name
  | none, some name => [⟨name.node, .type, scope, .none⟩]
  | _, none => []

mutual
/-- the calls made by `resolve_type` (`resolve.rs:301-389`) -/
def namesTy (scope : Scope) : Ty → List Ev
  | .fn a b => namesTy scope a ++ namesTy scope b
  | .named ns name args => namesTyName scope ns name ++ namesTys scope args
  | .paren t => namesTy scope t
  | _ => []
def namesTys (scope : Scope) : Tys → List Ev
  | .nil => []
  | .cons t ts => namesTy scope t ++ namesTys scope ts
end

/-- the name part of `resolve_type_with_vars` (`resolve.rs:410-482`), as in `resolveTyV` -/
def headTyV (me : Nat) (ns name : Option Name) (noArgs : Bool) (v : VSt) : Option Sym × VSt :=
  match ns, name with
  | some ns, some name =>
    let (s, st) := resolveNs .type v.scope ns name v.st
    (s, { v with st })
  | none, some name =>
    match v.scope.lookupType name.text with
    | some s => (some s, { v with st := v.st.ref s name.node })
    | none =>
      if startsLower name.text && noArgs then
        let (s, st) := v.st.fresh me name.node
        let st := st.def_ ⟨s, .type 0 true none, .local, name.node, name.text, true, []⟩
        (some s, ⟨v.scope.insertType name.text s, v.vars ++ [s], st⟩)
      else (none, { v with st := v.st.err .undefType name.node })
  | _, none => (none, v)

/-- `headTyV` is what `resolveTyV` does with the name before it turns to the arguments. -/
theorem resolveTyV_named (me : Nat) (ns name : Option Name) (args : Tys) (v : VSt) :
    resolveTyV me (.named ns name args) v =
      ((match (headTyV me ns name args.isNil v).1 with
        | some s => .named s (resolveTysV me args (headTyV me ns name args.isNil v).2).1
        | none => .error), (resolveTysV me args (headTyV me ns name args.isNil v).2).2) := by
  conv => lhs; unfold resolveTyV
  rfl

mutual
/-- the calls made by `resolve_type_with_vars` (`resolve.rs:391-495`) -/
def namesTyV (me : Nat) : Ty → VSt → List Ev
  | .fn a b, v => namesTyV me a v ++ namesTyV me b (resolveTyV me a v).2
  | .named ns name args, v =>
    namesTyName v.scope ns name ++ namesTysV me args (headTyV me ns name args.isNil v).2
  | .paren t, v => namesTyV me t v
  | _, _ => []
def namesTysV (me : Nat) : Tys → VSt → List Ev
  | .nil, _ => []
  | .cons t ts, v => namesTyV me t v ++ namesTysV me ts (resolveTyV me t v).2
end

def namesAnn (me : Nat) (ty : Option Ty) (v : VSt) : List Ev :=
  match ty with
  | some ty => namesTyV me ty v
  | none => []

/-- the calls for the constructor of a match case (`resolve.rs:677-712`) -/
def namesCtor (scope : Scope) (ns ctor : Option Name) : List Ev :=
  match ns, ctor with
  | some ns, some name => namesNs .pattern scope ns name
  | none, some name => [⟨name.node, .pattern, scope, .none⟩]
  | _, none => []

mutual
/-- the calls made by `resolve_expr` (`resolve.rs:528-674`) -/
def namesExpr (me : Nat) : Expr → Scope → St → List Ev
  | .name (some n), scope, _ => [⟨n.node, .value, scope, .none⟩]
  | .nsName (some ns) (some n), scope, _ => namesNs .value scope ns n
  | .apply f a, scope, st => namesExpr me f scope st ++ namesExpr me a scope (resolveExpr me f scope st)
  | .binary l r, scope, st => namesExpr me l scope st ++ namesExpr me r scope (resolveExpr me l scope st)
  | .letE name ty value rest, scope, st =>
    let scope := scope.child
    let v0 : VSt := ⟨scope.child, [], st⟩
    let (rty, v) := resolveAnn me ty v0
    let st := resolveExpr me value v.scope v.st
    let (inner, st') := bindOpt me name rty v.vars scope st
    namesAnn me ty v0 ++ (namesExpr me value v.scope v.st ++ namesExpr me rest inner st')
  | .matchE d cases, scope, st =>
    namesExpr me d scope st ++ namesCases me cases scope (resolveExpr me d scope st)
  | .ifE c t e, scope, st =>
    let st1 := resolveExpr me c scope st
    namesExpr me c scope st ++ (namesExpr me t scope st1 ++
      namesExpr me e scope (resolveExpr me t scope st1))
  | .lambda p body, scope, st =>
    let (scope, st) := bindOpt me p .infer [] scope.child st
    namesExpr me body scope st
  | .paren e, scope, st => namesExpr me e scope st
  | _, _, _ => []
/-- the calls made by `resolve_match_case` (`resolve.rs:676-745`) for each case -/
def namesCases (me : Nat) : Cases → Scope → St → List Ev
  | .nil, _, _ => []
  | .cons ns ctor vars body rest, scope, st =>
    let st := resolveCtor scope ns ctor st
    let (inner, st) := bindVars me vars scope.child st
    namesCtor scope ns ctor ++ (namesExpr me body inner st ++
      namesCases me rest scope (resolveExpr me body inner st))
end

/-- the fields of a type case (`resolve.rs:242-254`) -/
def namesFields (scope : Scope) : List FieldSyntax → List Ev
  | [] => []
  | .recur :: fs => namesFields scope fs
  | .type t :: fs => namesTy scope t ++ namesFields scope fs

/-- the calls made by `resolve_item` (`resolve.rs:77-89`): none for an import; the fields of the cases of
a type, under its parameters (`:181-214`); annotation and expression of a value (`:497-526`). -/
def namesItem (me : Nat) (scope : Scope) (st : St) : Item → List Ev
  | .importI .. => []
  | .typeI node _ _ name params cases =>
    let (_, st) := st.fresh me (typeTag node name)
    let (scope, _, _) := bindParams me params scope.child st
    cases.flatMap fun c => namesFields scope c.fields
  | .valueI exported name ty value =>
    let v0 : VSt := ⟨scope.child, [], st⟩
    let (rty, v) := resolveAnn me ty v0
    let st := match name with
      | some n =>
        let (s, st) := v.st.fresh me n.node
        st.def_ ⟨s, .value rty v.vars, if exported then .export else .module, n.node, n.text, true, []⟩
      | none => v.st
    namesAnn me ty v0 ++ namesExpr me value v.scope st

end Tic.Resolve

namespace Tic.Api

open Tic.Resolve

/-- The entries an export map has: later insertions replace earlier ones of the same key. -/
def live {S : Type} : List (Export S) → List (Export S)
  | [] => []
  | e :: r => e :: (live r).filter fun e' => !(decide (e'.ns = e.ns) && decide (e'.text = e.text))

/-- the usage an exported definition is for (`completion.rs:80-85`) -/
def kindUsage {S : Type} : Kind S → NS
  | .value .. => .value
  | .ctor .. => .pattern
  | .type .. => .type
  | .module => .module

/-- `add_exports` (`completion.rs:78-90`) -/
def exportNames {S : Type} (ex : List (Export S)) (usage : NS) : List String :=
  ((live ex).filter fun e => decide (kindUsage e.kind = usage)).map (·.text)

/-- `add_keys_from` (`completion.rs:71-76`) -/
def keys {α : Type} (m : List (String × α)) : List String := m.map (·.1)

/-- the body of the loop over the scopes (`completion.rs:52-65`) -/
def frameNames (usage : NS) (space : Space) (f : Frame) : List String :=
  match space with
  | .none => keys f.modules ++
    (match usage with
      | .type => keys f.types
      | .value => keys f.values
      | .pattern => keys f.ctors
      | .module => [])
  | .module ex => exportNames ex usage
  | .unresolved => []

/-- `dedup_by` -/
def dedup : List String → List String
  | [] => []
  | [a] => [a]
  | a :: b :: r => if a = b then dedup (b :: r) else a :: dedup (b :: r)

/-- what `on_name` computes (`completion.rs:45-69`) -/
def offered (ev : Ev) : List String :=
  dedup ((ev.scope.flatMap (frameNames ev.usage ev.space)).mergeSort fun a b => decide (a ≤ b))

/-- the index of the item at the position (`completion.rs:13-16`), among the first `n` -/
def Src.itemAt (s : Src) (pos n : Nat) : Option Nat :=
  (List.range n).find? fun k => inside (s.ispan k) pos

/-- `completions_at` (`completion.rs:11-32`), with `n` items compiled before.  `reparsed k` is the item
parsed from the text of the `k`-th item with the temporary identifier inserted at the position, and
`span'` gives the spans of its nodes.  The last callback at the position counts. -/
def Src.completionsAt (s : Src) (reparsed : Nat → Item) (span' : Nat → Span) (n pos : Nat) :
    Option (List String) × Nat :=
  let n := s.compileUpTo pos n
  match s.itemAt pos n with
  | none => (none, n)
  | some k =>
    let scope := ((s.outs n).take k).foldl (fun sc o => Scope.addItem sc o.defs) ([{}] : Scope)
    let evs := namesItem s.me scope {} (reparsed k)
    (((evs.filter fun ev => inside (span' ev.node) pos).getLast?).map offered, n)

end Tic.Api
