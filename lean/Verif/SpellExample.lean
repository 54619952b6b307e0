/-
C55: a concrete file.
-/
import Verif.PropSpell
import Verif.UnitExample

namespace Tic.Spell

open Tic.Parser
open Tic.Units
open Tic.Lower (tx Text)
open Tic.Lexer (rules)
open Tic.Resolve (collectExports ErrKind)
open Tic.Api (flat)

theorem exLookup_named : Named exLookup := by
  intro p p' u u' h h' e he e' he' _
  cases h
  cases h'
  rw [List.mem_singleton] at he he'
  rw [he, he']

/-- The theorem applies to the file of `UnitExample`, after two requests. -/
example := spelled_same parseOnly_lawful (fun _ => 1) exText [3, 20] exLookup_elsewhere exLookup_named

/-- In it: the use of `f` at 60, its definition at 47 which both are spelled `f`, and the use of the import `z` at 63. -/
example : (exUnit.findDefinition 0 60).1 = some (47, 48) ∧ textAt exText (47, 48) = tx "f" ∧ textAt exText (60, 61) = tx "f" ∧
    (exUnit.findDefinition 0 63).1 = some (8, 9) ∧ textAt exText (8, 9) = tx "z" ∧ textAt exText (63, 64) = tx "z" := by decide +kernel

/-- Two imports give the exports of two different files, a third path leads nowhere. -/
example : ∃ files : Text → Except ErrKind Api.Src, (∃ s, files (tx "m") = .ok s) ∧ (∃ s, files (tx "n") = .ok s) ∧
    Elsewhere 0 (fun p => (files p).map fun s => collectExports (flat s.full).defs) ∧ Named (fun p => (files p).map fun s => collectExports (flat s.full).defs) := by
  have none_ : ∀ me, Elsewhere me (fun _ => .error .noModule) := fun _ _ _ h => by cases h
  obtain ⟨_, items, -, -, -, h1⟩ := unit_laid parseOnly_lawful (fun _ => 1) (tx "export a : int = 1;") [] (none_ 1)
  obtain ⟨_, items', -, -, -, h2⟩ := unit_laid parseOnly_lawful (fun _ => 1) (tx "export type T = A | B rec;") [4] (none_ 2)
  generalize hu : unitOf (fun _ => .error .noModule) 1 (tx "export a : int = 1;") (items.map parseOnly.syn) = u at h1
  generalize hu' : unitOf (fun _ => .error .noModule) 2 (tx "export type T = A | B rec;") (items'.map parseOnly.syn) = u' at h2
  have m1 : u.me = 1 := by rw [← hu]; rfl
  have m2 : u'.me = 2 := by rw [← hu']; rfl
  refine ⟨fun p => if p = tx "m" then .ok u else if p = tx "n" then .ok u' else .error .noModule, ⟨u, if_pos rfl⟩, ⟨u', ?_⟩, imports_of_files ?_ ?_⟩
  · simp only; rw [if_neg (by decide +kernel), if_pos trivial]
  · intro p s h
    split at h
    · cases h; exact ⟨h1, by omega⟩
    · split at h
      · cases h; exact ⟨h2, by omega⟩
      · cases h
  · intro p p' s s' h h' hm
    split at h <;> split at h'
    · cases h; cases h'; rfl
    · split at h'
      · cases h; cases h'; omega
      · cases h'
    · split at h
      · cases h; cases h'; omega
      · cases h
    · split at h <;> split at h'
      · cases h; cases h'; rfl
      · cases h'
      · cases h
      · cases h

end Tic.Spell
