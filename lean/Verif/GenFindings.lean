import Verif.GenExamples
import Verif.Verify
/-
Programs the checks accept, although what is generated for them fails.
-/
namespace Tic.Front
open Tic.Unify (Symbol IrTy)
open Tic.Core

/-- `type Option a = None | Some a`. -/
def optionItem : Item := .type ⟨5, [6], [(7, []), (8, [.ty (.named 6 [])])]⟩
/-- `type List a = Nil | Cons a rec`. -/
def listItem : Item := .type ⟨1, [2], [(3, []), (4, [.ty (.named 2 []), .rec_])]⟩

/-- The result of running a module, and whether the core verifier accepts it. -/
def outcome (n : Nat) (items : List Item) : Option (Res (List Obs) × Bool) :=
  (emitItems exI true ([], {}) items).map fun r => (runExports n ⟨r.2.types, r.2.defs⟩, (verify r.2.names ⟨r.2.types, r.2.defs⟩).isSome)

/-- The working example is fine. -/
example : outcome 40 exItems = some (.ok [.int 6, .comp 9 [.int 1024]], true) := by decide +kernel

/-- Escaping type variables (finding 31): the accepted program panics. -/
theorem escaping_variable_panics : ∃ r, typeCheck 30 escDefs escRefs .int escProg = some r ∧ r.diags = [] ∧
    outcome 60 [optionItem, .value 45 (some "main") ⟨[], .int⟩ r.expr] = some (.panic, false) := by
  refine ⟨_, rfl, rfl, ?_⟩
  decide +kernel

/-- `\fold y -> (\fold x -> 5) y`. -/
def nestedFold : Ex Unit := .lambda true 12 () () (.apply (.paren (.lambda true 13 () () (.number 5))) (.name 12 []))

/-- A fold over the parameter of a fold is accepted, and the program panics. -/
theorem nested_fold_panics : ∃ r r', typeCheck 30 exDefs [12, 13] (.fn (.named 1 [.int]) .int) nestedFold = some r ∧ r.diags = [] ∧
    typeCheck 30 exDefs2 [3, 4, 9] .int sixSrc = some r' ∧ r'.diags = [] ∧
    outcome 60 [listItem, .value 9 none ⟨[], .fn (.named 1 [.int]) .int⟩ r.expr, .value 60 (some "main") ⟨[], .int⟩ r'.expr] = some (.panic, false) := by
  refine ⟨_, _, rfl, rfl, rfl, rfl, ?_⟩
  decide +kernel

/-- `let x = true; export let y : int = x + 1;` is accepted (finding 30), and panics. -/
theorem unannotated_item_panics : ∃ r r', typeCheck 20 exDefs [11] .infer (.bool true) = some r ∧ r.diags = [] ∧
    typeCheck 20 exDefs [11] .int (.binary .add (.name 11 []) (.number 1)) = some r' ∧ r'.diags = [] ∧
    outcome 20 [.value 11 none ⟨[], .infer⟩ r.expr, .value 60 (some "y") ⟨[], .int⟩ r'.expr] = some (.panic, false) := by
  refine ⟨_, _, rfl, rfl, rfl, rfl, ?_⟩
  decide +kernel

/-- `type Void` and `let absurd : Void -> int = \v -> match v with end`. -/
def voidDefs : Symbol → Option DefKind
  | 71 => some (.value ⟨[], .infer⟩)
  | _ => none

/-- A match without cases on a type without constructors passes all checks (`Covered`), the program
runs, but the verifier, on by default, stops the compiler. -/
theorem empty_match_stops_compiler : ∃ r, typeCheck 20 voidDefs [71] (.fn (.named 70 []) .int)
      (.lambda false 71 () () (.match_ (.name 71 []) () [])) = some r ∧ r.diags = [] ∧ Covered [⟨70, [], []⟩] r.expr ∧
    outcome 20 [.type ⟨70, [], []⟩, .value 72 (some "absurd") ⟨[], .fn (.named 70 []) .int⟩ r.expr] = some (.ok [.fn], false) := by
  refine ⟨_, rfl, rfl, ?_, by decide +kernel⟩
  intro p hp d dty cases he
  simp only [nodes, caseNodes, List.mem_cons, List.append_nil, List.not_mem_nil, or_false] at hp
  rcases hp with rfl | rfl | rfl <;> cases he
  rfl

/-- A constructor with ten fields. -/
def tenDecl : TypeDecl := ⟨80, [], [(81, List.replicate 10 (.ty .int))]⟩

/-- `C 0 .. 0`. -/
def tenValue : Nat → Ex IrTy
  | 0 => .name 81 []
  | n + 1 => .apply (tenValue n) (.number 0)

/-- Its definition. -/
def tenDefs : Symbol → Option DefKind
  | 81 => some (.ctor ⟨80, [], List.replicate 10 (.ty .int)⟩ (ctorTy ⟨80, [], List.replicate 10 (.ty .int)⟩))
  | _ => none

/-- A constructor with more than nine fields passes all checks and the verifier, and panics when it
is used. -/
theorem ten_fields_panic : (∃ n r, typeCheck n tenDefs [81] (.named 80 []) (tenValue 10).erase = some r ∧ r.diags = [] ∧ r.expr = tenValue 10) ∧
    outcome 40 [.type tenDecl, .value 82 (some "x") ⟨[], .named 80 []⟩ (tenValue 10)] = some (.panic, true) :=
  ⟨⟨40, _, rfl, rfl, rfl⟩, by decide +kernel⟩

end Tic.Front
