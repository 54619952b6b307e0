/-
C54: a concrete file.
-/
import Verif.PropUnit
import Verif.LowerExample

namespace Tic.Units

open Tic.Parser
open Tic.Lower (tx Text)
open Tic.Lexer (rules)

/-- The trees of the items of a text: at most `n`. -/
def treesOf : Nat → List Tok → Nat → List Elem
  | 0, _, _ => []
  | n + 1, toks, start =>
    if toks.isEmpty then [] else
    match parseOneItem toks start with
    | none => []
    | some (t, _) => t :: treesOf n (toks.drop (t.leaves.length)) t.full.2

/-- Two values, the second with a shadowed name and a syntax error at its end, and an import. -/
def exText : Text := tx "import (z) from \"m\";\nlet f = \\x -> x;\nlet g = \\f -> let y = f; z y + ;\n"

/-- The module `m` exports a value `z`. -/
def exLookup : Lookup := fun _ => .ok [⟨.value, "z", ⟨7, 0, 0⟩, .value .int []⟩]

theorem exLookup_elsewhere : Elsewhere 0 exLookup := by
  intro path u h e he
  cases h
  rw [List.mem_singleton] at he
  subst he
  decide

def exUnit : Api.Src := unitOf exLookup 0 exText (treesOf 5 (lex (rules fun _ => 1) exText) 0)

/-- The use of `x` in its item leads to the parameter, the one of `f` to the parameter of `g` and not to the item `f`, those of `y` and `z` to the `let`
and the import; there is nothing at the operator. -/
example : [35, 60, 63, 65, 67].map (fun pos => (exUnit.findDefinition 0 pos).1) = [some (30, 31), some (47, 48), some (8, 9), some (56, 57), none] := by decide +kernel

/-- The references to the parameter of `g`. -/
example : (exUnit.findReferences 0 47).1 = some [(60, 61)] := by decide +kernel

end Tic.Units
