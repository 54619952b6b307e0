/-
The driver loop of a compilation unit: `ticc/src/lib.rs:99-141`.
-/
import Verif.ParserTree

namespace Tic.Parser

/-- The analyses that follow parsing, `lib.rs:121-129`, and the tables they read: `Scope` and
`DefSet`, `compiler.rs`.  What they compute is a parameter; `check` stands for `check_numbers`,
`kind_check`, `type_check` and `check_matches` together. -/
structure Phases (S D I : Type) where
  scope0 : S
  defs0 : D
  addScope : S → I → S
  addDefs : D → I → D
  parsed : Elem → List (Nat × Nat) → I
  resolve : S → I → I
  check : D → I → I
  syn : I → Elem
  parseErrors : I → List (Nat × Nat)

/-- No phase changes the syntax tree of an item (from which its span comes, `parser.rs:31-34`) nor
the parser's diagnostics (phases only append others). -/
structure Phases.Lawful {S D I} (p : Phases S D I) : Prop where
  syn_parsed : ∀ e d, p.syn (p.parsed e d) = e
  syn_resolve : ∀ s i, p.syn (p.resolve s i) = p.syn i
  syn_check : ∀ d i, p.syn (p.check d i) = p.syn i
  err_parsed : ∀ e d, p.parseErrors (p.parsed e d) = d
  err_resolve : ∀ s i, p.parseErrors (p.resolve s i) = p.parseErrors i
  err_check : ∀ d i, p.parseErrors (p.check d i) = p.parseErrors i

/-- The state inside `compile_up_to`. -/
structure Comp (S D I : Type) where
  scope : S
  defs : D
  items : List I

/-- `compiled_length`, `lib.rs:137-139`; `item.span` is the full span of the root, `parser.rs:31`. -/
def Phases.compiledLength {S D I} (p : Phases S D I) (items : List I) : Nat :=
  match items.getLast? with
  | some i => (p.syn i).full.2
  | none => 0

/-- One round, `lib.rs:118-131`. -/
def Phases.round {S D I} (p : Phases S D I) (r : LexRules) (src : List UInt8) (c : Comp S D I) : Option (Comp S D I) :=
  let n := p.compiledLength c.items
  (parseOneItem (lex r (src.drop n)) n).map fun (e, d) =>
    let i := p.resolve c.scope (p.parsed e d)
    let defs := p.addDefs c.defs i
    let i := p.check defs i
    { scope := p.addScope c.scope i, defs, items := c.items ++ [i] }

/-- The loop, `lib.rs:112-132`; `n` bounds the number of rounds. -/
def Phases.loop {S D I} (p : Phases S D I) (r : LexRules) (src : List UInt8) (offset : Nat) : Nat → Comp S D I → Option (Comp S D I)
  | 0, _ => none
  | n + 1, c =>
    if offset ≤ p.compiledLength c.items ∨ p.compiledLength c.items = src.length then some c
    else (p.round r src c).bind (p.loop r src offset n)

/-- `compile_up_to`, `lib.rs:103-133`: the tables are built again from the items that are there. -/
def Phases.compileUpTo {S D I} (p : Phases S D I) (r : LexRules) (src : List UInt8) (offset : Nat) (items : List I) : Option (List I) :=
  if offset ≤ p.compiledLength items then some items
  else
    let c : Comp S D I := { scope := items.foldl p.addScope p.scope0, defs := items.foldl p.addDefs p.defs0, items }
    (p.loop r src offset (src.length + 1) c).map (·.items)

/-- A history of requests for positions. -/
def Phases.requests {S D I} (p : Phases S D I) (r : LexRules) (src : List UInt8) : List Nat → List I → Option (List I)
  | [], items => some items
  | o :: os, items => (p.compileUpTo r src o items).bind (p.requests r src os)

end Tic.Parser
