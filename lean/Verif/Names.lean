/-
Model of core-IR name generation and of how values are printed
(`ticc-core/src/ir.rs`, `ticc/src/interpreter.rs`).
-/
namespace Tic.Names

/-- Decimal digit character. -/
def digitChar (d : Nat) : Char := Char.ofNat (48 + d)

/-- Decimal rendering of an unsigned integer: Rust's `Display` for `u64`, used by
`ShowName` (`ticc-core/src/ir.rs:185-189`), `IntToString`
(`ticc-eval/src/treewalk.rs:134-137`) and `write_value`
(`ticc/src/interpreter.rs:95-97`). -/
def decimal (n : Nat) : List Char :=
  if n < 10 then [digitChar n] else decimal (n / 10) ++ [digitChar (n % 10)]
termination_by n

/-- `struct NameGenerator`, `ticc-core/src/ir.rs:120-123`. -/
structure NameGenerator where
  names : List (List Char) := []

/-- `new_fresh`, `ir.rs:136-140`.  A name is its id. -/
def NameGenerator.newFresh (g : NameGenerator) (debug : List Char) : NameGenerator × Nat :=
  let names := g.names ++ [debug]
  ({ names }, names.length - 1)

/-- `new_copy`, `ir.rs:142-145` (`none`: index out of range panic). -/
def NameGenerator.newCopy (g : NameGenerator) (original : Nat) : Option (NameGenerator × Nat) :=
  (g.names[original]?).map g.newFresh

/-- `next_synthetic`, `ir.rs:132-134`. -/
def NameGenerator.nextSynthetic (g : NameGenerator) : NameGenerator × Nat := g.newFresh ['$']

/-- `show_debug`, `ir.rs:147-152` with `Display for ShowName`, `ir.rs:185-189`. -/
def NameGenerator.showDebug (g : NameGenerator) (name : Nat) : Option (List Char) :=
  (g.names[name]?).map fun s => s ++ '_' :: decimal name

/-- One call to the generator. -/
inductive GenOp
  | fresh (debug : List Char)
  | copy (original : Nat)
  | synthetic

/-- Run one call. -/
def GenOp.run (g : NameGenerator) : GenOp → Option (NameGenerator × Nat)
  | .fresh d => some (g.newFresh d)
  | .copy o => g.newCopy o
  | .synthetic => some g.nextSynthetic

/-- Run a history of calls, collecting the generated names. -/
def runOps (g : NameGenerator) : List GenOp → Option (NameGenerator × List Nat)
  | [] => some (g, [])
  | op :: ops => (op.run g).bind fun (g, n) => (runOps g ops).map fun (g, ns) => (g, n :: ns)

/-! ### `Debug` for byte strings -/

/-- `hex_digit`, `ir.rs:228-234` (argument below 16). -/
def hexDigit (n : Nat) : Char :=
  if n ≤ 9 then Char.ofNat (48 + n) else if n ≤ 15 then Char.ofNat (97 + (n - 10)) else '?'

/-- The text written for one byte, `ir.rs:237-255`. -/
def showByte (b : UInt8) : List Char :=
  if 32 ≤ b.toNat ∧ b.toNat ≤ 126 then [Char.ofNat b.toNat]
  else if b.toNat = 13 then ['\\', 'r']
  else if b.toNat = 10 then ['\\', 'n']
  else ['\\', 'x', hexDigit (b.toNat / 16), hexDigit (b.toNat % 16)]

/-- `impl Debug for ByteString`, `ir.rs:226-258`. -/
def showBytes (bs : List UInt8) : List Char :=
  '"' :: (bs.flatMap showByte ++ ['"'])

end Tic.Names
