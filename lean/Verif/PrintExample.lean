/-
Printed types.
-/
import Verif.PropPrint
import Verif.LexerExample

namespace Tic.Print

open Tic.Unify (Symbol IrTy)
open Tic.Lexer
open Tic.Lower (tx)

/-- A file with a type `list` of two parameters (symbol 3) and its parameter `a` (symbol 4). -/
def exDefs : Defs := [[(1, tx "f")], [(3, tx "list"), (4, tx "a")]]

/-- `(a -> int) -> list (list a a) (a -> bool) -> {list => ?}`, and a type of another module. -/
def exTy : IrTy :=
  .fn (.fn (.named 4 []) .int) (.fn (.named 3 [.named 3 [.named 4 [], .named 4 []], .fn (.named 4 []) .bool]) (.folded (.named 9 [.infer]) .error))

example : (printType exDefs [] exTy).1 = tx "(a -> int) -> list (list a a) (a -> bool) -> {??? _ => ?}" := by decide +kernel

theorem exDefs_proper : ProperNames exDefs := fun d h => by
  simp only [exDefs, List.flatten_cons, List.flatten_nil, List.append_nil, List.mem_append, List.mem_cons, List.not_mem_nil, or_false] at h
  rcases h with rfl | rfl | rfl <;> exact isA_of (by decide +kernel) (by decide)

/-- The hypotheses of `printed_unambiguous`. -/
example : ProperNames exDefs ∧ ∀ d ∈ exDefs.flatten, d.2 ≠ [95] := ⟨exDefs_proper, by decide⟩

/-- The hypotheses of `printed_reads`. -/
example : Plain exDefs (.fn (.fn (.named 4 []) .int) (.named 3 [.named 3 [.named 4 [], .named 4 []], .fn (.named 4 []) .bool])) := by
  simp only [Plain, Plains]
  decide

end Tic.Print
