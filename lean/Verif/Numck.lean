/-
Model of number-literal checking and of how code generation reads the literal.
-/
namespace Tic.Numck

/-- `ticc/src/compiler/numck.rs:28-31` `enum ParseError`. -/
inductive ParseError
  | overflow
  | invalidDigit
deriving DecidableEq, Repr

/-- Rust's `char::to_digit(10)`, used at `ticc/src/compiler/numck.rs:37`:
the digit value of an ASCII decimal digit, `None` for any other char. -/
def toDigit (c : Char) : Option Nat :=
  if '0' ≤ c ∧ c ≤ '9' then some (c.toNat - '0'.toNat) else none

/-- `u64::checked_mul` (`numck.rs:38`). -/
def checkedMul (a b : Nat) : Option Nat := if a * b < 2 ^ 64 then some (a * b) else none
/-- `u64::checked_add` (`numck.rs:39`). -/
def checkedAdd (a b : Nat) : Option Nat := if a + b < 2 ^ 64 then some (a + b) else none

/-- The loop body of `parse_int`, `ticc/src/compiler/numck.rs:36-41`. -/
def parseLoop : List Char → Nat → Except ParseError Nat
  | [], acc => .ok acc
  | c :: cs, acc =>
    match toDigit c with
    | none => .error .invalidDigit
    | some d =>
      match (checkedMul acc 10).bind (fun a => checkedAdd a d) with
      | none => .error .overflow
      | some a => parseLoop cs a

/-- `parse_int`, `ticc/src/compiler/numck.rs:33-43`.  `none` is the failed
`assert!(!s.is_empty())`. -/
def parseInt (s : List Char) : Option (Except ParseError Nat) :=
  if s = [] then none else some (parseLoop s 0)

/-- The diagnostic pushed by `check_numbers` for one literal,
`ticc/src/compiler/numck.rs:13-25` (inner option: no diagnostic). -/
def diagnostic (s : List Char) : Option (Option String) :=
  (parseInt s).map fun
    | .ok _ => none
    | .error .invalidDigit => some "invalid number"
    | .error .overflow => some "number is too large"

/-- Digit loop of Rust's `<u64 as FromStr>::from_str` (radix 10): any bad digit
or overflow is an error. -/
def stdLoop : List Char → Nat → Option Nat
  | [], acc => some acc
  | c :: cs, acc =>
    match checkedMul acc 10 with
    | none => none
    | some a =>
      match toDigit c with
      | none => none
      | some d =>
        match checkedAdd a d with
        | none => none
        | some a => stdLoop cs a

/-- `n.token().text().parse::<u64>()`, `ticc/src/codegen/gen_core.rs:455`:
the standard library accepts one leading `+`, rejects the empty string and a
lone `+`.  `none` makes the `.unwrap()` there panic. -/
def codegenParse (s : List Char) : Option Nat :=
  match s with
  | [] => none
  | ['+'] => none
  | '+' :: cs => stdLoop cs 0
  | cs => stdLoop cs 0

end Tic.Numck
