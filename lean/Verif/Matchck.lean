/-
Model of the match exhaustiveness checker, `ticc/src/compiler/matchck.rs`.
Symbols are natural numbers.
-/
namespace Tic.Matchck

/-- Diagnostics of `check` that concern coverage (`matchck.rs:82-130`); the
"cannot match on" diagnostics (lines 33-72) are about the scrutinee's type. -/
inductive Diag
  | cannotMatch
  | unreachable (caseIndex : Nat)
  | missing1 (c : Nat)
  | missing2 (c₁ c₂ : Nat)
  | missingMany (c : Nat) (more : Nat)
deriving DecidableEq, Repr

/-- The constructors of the scrutinee's type definition
(`ir::Ctors`, used at `matchck.rs:60-74`). -/
inductive Ctors
  | list (cs : List Nat)
  | opaq
deriving DecidableEq, Repr

/-- The scrutinee's type as far as the checker distinguishes it
(`matchck.rs:26-58`): a named type (possibly folded), an error type, no type
recorded / no scrutinee, or something else. -/
inductive Scrutinee
  | named (ctors : Ctors)
  | error
  | missing
  | other
deriving DecidableEq, Repr

/-- The loop over the cases, `matchck.rs:75-90`.  A case is `none` when it has no
constructor token or the constructor is not resolved (`?` returns early, giving
`none` here). -/
def loop (all : List Nat) : List (Option Nat) → (idx : Nat) → (missing : List Nat) →
    (diags : List Diag) → Option (List Nat × List Diag) × List Diag
  | [], _, missing, diags => (some (missing, diags), diags)
  | none :: _, _, _, diags => (none, diags)
  | some s :: cases, idx, missing, diags =>
    if !all.contains s then loop all cases (idx + 1) missing diags
    else
      let diags := if !missing.contains s then diags ++ [.unreachable idx] else diags
      loop all cases (idx + 1) (missing.filter (· != s)) diags

/-- The final match on the missing constructors, `matchck.rs:91-130`. -/
def report : List Nat → List Diag
  | [] => []
  | [c] => [.missing1 c]
  | [c₁, c₂] => [.missing2 c₁ c₂]
  | c :: rest => [.missingMany c rest.length]

/-- `check`, `matchck.rs:18-132`: the diagnostics it pushes, and whether it ran to
the end (`Some(())`). -/
def check (scrut : Scrutinee) (cases : List (Option Nat)) : List Diag × Bool :=
  match scrut with
  | .missing => ([], false)
  | .error => ([], false)
  | .other => ([.cannotMatch], false)
  | .named .opaq => ([.cannotMatch], false)
  | .named (.list all) =>
    match loop all cases 0 all [] with
    | (none, diags) => (diags, false)
    | (some (missing, diags), _) => (diags ++ report missing, true)

end Tic.Matchck
