import Verif.Resolve

/-!
# Editor queries: go to definition, find references, the unused-definition lint

Models `ticc/src/api.rs:12-56`, `ticc/src/api/navigation.rs` and `ticc/src/lint/unused.rs`, on top of
name resolution (`Verif.Resolve`), and the part of `compile_up_to` (`ticc/src/lib.rs:103-141`) that decides
how many items are compiled.

Simplifications.  A unit is the list of its items as the parser gives them, the span of each item and
the span of each syntax node; the queries read nothing else.  What compiling has done so far is the
number of items compiled: the state of the unit after `n` items is what resolving the first `n` items
records (C22 proves that compiling in steps gives that).  Hash sets are lists.
-/

namespace Tic.Api

open Tic.Resolve

/-- `Span`: start and end offset. -/
abbrev Span := Nat × Nat

/-- A compilation unit (`lib.rs:24-33`): its key, its items, the full span of the `k`-th item
(`parser.rs:31`), and the span of a syntax node. -/
structure Src where
  me : Nat
  items : List Item
  ispan : Nat → Span
  span : Nat → Span

/-- `compilation.items` after `n` items are compiled (`lib.rs:108-131`): their definitions and references. -/
def Src.outs (s : Src) (n : Nat) : List (Out Sym) := resolveUnit s.me (s.items.take n) [{}] 0

/-- `compiled_length` (`lib.rs:139-141`) -/
def Src.compiledLength (s : Src) : Nat → Nat
  | 0 => 0
  | n + 1 => (s.ispan n).2

/-- the loop of `compile_up_to` (`lib.rs:114-132`); the text ends where the last item ends (C20). -/
def Src.advance (s : Src) (offset : Nat) : Nat → Nat → Nat
  | 0, n => n
  | fuel + 1, n =>
    if offset ≤ s.compiledLength n ∨ s.items.length ≤ n then n else s.advance offset fuel (n + 1)

/-- `compile_up_to` (`lib.rs:103-133`): how many items are compiled afterwards. -/
def Src.compileUpTo (s : Src) (offset n : Nat) : Nat := s.advance offset (s.items.length - n) n

/-- `span.start() <= pos && pos <= span.end()` -/
def inside (sp : Span) (pos : Nat) : Bool := decide (sp.1 ≤ pos) && decide (pos ≤ sp.2)

/-- the negation of `pos < item.span.start() || item.span.end() <= pos` -/
def inItem (sp : Span) (pos : Nat) : Bool := !(decide (pos < sp.1) || decide (sp.2 ≤ pos))

/-- `find_ref_at` (`api.rs:12-24`) -/
def Src.findRefAt {S : Type} (s : Src) (pos : Nat) : Nat → List (Out S) → Option (S × Nat)
  | _, [] => none
  | k, o :: os =>
    if inItem (s.ispan k) pos then
      match o.refs.find? (fun r => inside (s.span r.2) pos) with
      | some r => some r
      | none => s.findRefAt pos (k + 1) os
    else s.findRefAt pos (k + 1) os

/-- `find_def_at` (`api.rs:26-38`) -/
def Src.findDefAt {S : Type} (s : Src) (pos : Nat) : Nat → List (Out S) → Option (Def S)
  | _, [] => none
  | k, o :: os =>
    if inItem (s.ispan k) pos then
      match o.defs.find? (fun d => inside (s.span d.node) pos) with
      | some d => some d
      | none => s.findDefAt pos (k + 1) os
    else s.findDefAt pos (k + 1) os

/-- `find_def_or_ref_at` (`api.rs:40-43`): the symbol. -/
def Src.symAt {S : Type} (s : Src) (pos : Nat) (outs : List (Out S)) : Option S :=
  match s.findRefAt pos 0 outs with
  | some r => some r.1
  | none => (s.findDefAt pos 0 outs).map (·.sym)

/-- The first definition of a symbol and the item it is in (`api.rs:45-54`, and the search at
`navigation.rs:22-25`). -/
def findDef {S : Type} [DecidableEq S] (x : S) : List (Out S) → Option (Out S × Def S)
  | [] => none
  | o :: os =>
    match o.defs.find? (fun d => decide (d.sym = x)) with
    | some d => some (o, d)
    | none => findDef x os

/-- the spans of the references to a symbol -/
def Src.refSpans {S : Type} [DecidableEq S] (s : Src) (x : S) (refs : List (S × Nat)) : List Span :=
  refs.filterMap fun r => if r.1 = x then some (s.span r.2) else none

/-- `find_definition` (`navigation.rs:4-13`), with `n` items compiled before; returns the answer and how
many items are compiled after. -/
def Src.findDefinition (s : Src) (n pos : Nat) : Option Span × Nat :=
  let n := s.compileUpTo (pos + 1) n
  let outs := s.outs n
  (match s.findRefAt pos 0 outs with
   | some r => (findDef r.1 outs).map fun d => s.span d.2.node
   | none => (s.findDefAt pos 0 outs).map fun d => s.span d.node, n)

/-- `find_references` (`navigation.rs:18-47`) -/
def Src.findReferences (s : Src) (n pos : Nat) : Option (List Span) × Nat :=
  let n := s.compileUpTo (pos + 1) n
  let outs := s.outs n
  match s.symAt pos outs with
  | none => (none, n)
  | some x =>
    match findDef x outs with
    | none => (none, n)
    | some (item, d) =>
      if d.vis = .local then (some (s.refSpans x item.refs), n)
      else
        let n := s.compileUpTo (s.compiledLength s.items.length) n
        (some (s.refSpans x ((s.outs n).flatMap (·.refs))), n)

/-- The symbol of the first type that is not a variable among the definitions of an item
(`unused.rs:13-16`). -/
def typeDef {S : Type} (o : Out S) : Option S :=
  (o.defs.find? fun d => match d.kind with
    | .type _ v _ => !v
    | _ => false).map (·.sym)

/-- `used` before the constructors' types are added (`unused.rs:8-31`) -/
def usedIn {S : Type} (o : Out S) : List S :=
  o.refs.map (·.1) ++ o.defs.filterMap fun d => match d.kind with
    | .type _ true _ => some d.sym
    | _ => if d.vis = .export then some d.sym else none

/-- `deps` (`unused.rs:24-29`): constructor and type. -/
def depsIn {S : Type} (o : Out S) : List (S × S) :=
  o.defs.filterMap fun d => match d.kind, typeDef o with
    | .ctor .., some t => some (d.sym, t)
    | _, _ => none

/-- `deps.get(s)`: the latest insertion counts. -/
def getDep {S : Type} [DecidableEq S] (x : S) (deps : List (S × S)) : Option S :=
  (deps.reverse.find? fun p => decide (p.1 = x)).map (·.2)

/-- `name.chars().next() == Some('_')` -/
def underscored (text : String) : Bool := text.toList.head? == some '_'

/-- The definitions the lint reports (`unused.rs:5-51`), for the whole unit. -/
def unused {S : Type} [DecidableEq S] (outs : List (Out S)) : List (Def S) :=
  let used := outs.flatMap usedIn
  let deps := outs.flatMap depsIn
  let used := used ++ used.filterMap fun x => getDep x deps
  outs.flatMap fun o => o.defs.filter fun d =>
    (match d.kind with | .module => false | _ => true) && decide (d.sym ∉ used) && !underscored d.text

/-- `lints` (`unused.rs:5-51`) -/
def Src.lints (s : Src) : List Span := (unused (s.outs s.items.length)).map fun d => s.span d.node

end Tic.Api
