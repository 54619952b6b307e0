/-
C56: a concrete file.
-/
import Verif.PropEvery
import Verif.UnitExample

namespace Tic.Spell

open Tic.Parser
open Tic.Units
open Tic.Lower (tx Text)
open Tic.Lexer (rules)

/-- An import, a type and a value; the last value uses an undefined name. -/
def everyText : Text := tx "import i (z) from \"m\";\ntype T a = A a | B rec i.V;\nlet g : b -> T b = \\f -> let y = f; match i.w (z y) with | A q -> f | i.C -> z end;\nlet h = \\x -> no x;\n"

/-- The module `m` exports values, a type and a constructor. -/
def everyLookup : Lookup := fun _ => .ok [⟨.value, "z", ⟨7, 0, 0⟩, .value .int []⟩, ⟨.value, "w", ⟨7, 1, 1⟩, .value .int []⟩, ⟨.type, "V", ⟨7, 2, 2⟩, .type 0 false none⟩,
  ⟨.pattern, "C", ⟨7, 3, 3⟩, .ctor ⟨7, 2, 2⟩ [] [] .int⟩]

theorem everyLookup_elsewhere : Elsewhere 0 everyLookup := by
  intro path u h e he
  cases h
  simp only [List.mem_cons, List.not_mem_nil, or_false] at he
  rcases he with rfl | rfl | rfl | rfl <;> decide

def everyToks : List Tok := lex (rules fun _ => 1) everyText
def everyUnit : Api.Src := unitOf everyLookup 0 everyText (treesOf 5 everyToks 0)

/-- The identifiers of the text and what go-to-definition answers at their last position. -/
def everyAnswers : List (Text × Option (Nat × Nat)) :=
  ((place 0 everyToks).filter fun x => x.1 = .token .ident).map fun x => (textAt everyText x.2, (everyUnit.findDefinition 0 x.2.2).1)

/-- The theorem applies, after two requests. -/
example := answers_everywhere parseOnly_lawful (fun _ => 1) everyText [3, 20] everyLookup_elsewhere

/-- Of the thirty identifiers seven get no answer: those of `i.V`, `i.w` and `i.C`, and the undefined one. -/
example : everyAnswers.length = 30 ∧ (everyAnswers.filter fun x => x.2 = none).map Prod.fst = ["i", "V", "i", "w", "i", "C", "no"].map tx := by decide +kernel

/-- The first three items have no errors, of any kind. -/
example : everyUnit.rules.map (fun o => o.errs.length) = [0, 0, 0, 1] ∧
    (parseOnly.compileUpTo (rules fun _ => 1) everyText everyText.length []).map (fun is => is.map parseOnly.parseErrors) = some [[], [], [], []] := by decide +kernel

/-- The names around dots. -/
example : (everyUnit.items.flatMap dotItem).map (·.text) = ["i", "V", "i", "w", "i", "C"] := by decide +kernel

end Tic.Spell
