/-
C57: concrete histories of the language server.
-/
import Verif.ServerTotal

namespace Tic.Server.Example

/-- A small language: a text is a list of imported files and a number, its unit is the sum of the numbers; a failed import counts as 100 and an import cycle as 1000. -/
def L : Lang Nat Nat (List Nat × Nat) Nat Unit where
  empty := ([], 0)
  imports := Prod.fst
  join _ n := if n = 9 then none else some n
  build t rs := t.2 + (rs.map fun r => match r with | .ok u => u | .error .importCycle => 1000 | .error _ => 100).sum

/-- On the disk: file 1 has the number 5, nothing else is there. -/
def disk : Disk Nat (List Nat × Nat) Unit := fun k => if k = 1 then .ok ([], 5) else .error .notFound

/-- Later file 1 has the number 6. -/
def disk' : Disk Nat (List Nat × Nat) Unit := fun k => if k = 1 then .ok ([], 6) else .error .notFound

def diags (u : Nat) : List Nat := [u]

def go (es : List (Disk Nat (List Nat × Nat) Unit × Note Nat (List Nat × Nat))) : Option (Server Nat (List Nat × Nat) Nat Unit Nat) := run L diags id 10 es start

/-- File 0 imports file 1 and files that are not there; then file 1 is opened, changed so that it imports file 0, changed back, and closed. -/
def history : List (Disk Nat (List Nat × Nat) Unit × Note Nat (List Nat × Nat)) :=
  [(disk, .opened 0 ([1, 7, 9], 20)), (disk, .opened 1 ([], 3)), (disk, .changed 1 ([0], 3) []), (disk, .changed 1 ([], 4) []), (disk, .closed 1)]

/-- The diagnostics that are sent, the latest first: file 0 is compiled again after each change of file 1.  In the cycle file 0 is compiled once more as an import of file 1, where the import of
file 7, which is not there, is reported as missing; after that the import of file 7 in file 0 is reported as a cycle (finding 9). -/
example : (go history).map (·.sent) = some [(1, []), (1, [4]), (0, [224]), (1, [1226]), (0, [2343]), (1, [3]), (0, [223]), (0, [225])] := by decide +kernel

/-- The hypotheses of `server_fresh` and `server_total` are met, and the conclusion says what it should: file 0 is open, its unit is 224. -/
example : ∃ s, go history = some s ∧ ∃ contents : Disk Nat (List Nat × Nat) Unit, contents 0 = .ok ([1, 7, 9], 20) ∧ contents 1 = .ok ([], 4) ∧ contents 7 = .error .notFound ∧
    specUnit L contents 10 0 = some 224 ∧ find 0 s.sent = some [224] ∧ (find 0 s.comps).bind (·.unit) = some 224 ∧ find 1 s.comps = none := by
  have hone : ∀ e ∈ history, OneText e.2 := by
    intro e he
    simp only [history, List.mem_cons, List.not_mem_nil, or_false] at he
    rcases he with rfl | rfl | rfl | rfl | rfl <;> first | rfl | exact trivial
  obtain ⟨s, hs⟩ := server_total L diags id (fun _ _ => Iff.rfl) 10 history hone [0, 1, 7]
    (by
      intro e he k t h
      simp only [history, List.mem_cons, List.not_mem_nil, or_false] at he
      rcases he with rfl | rfl | rfl | rfl | rfl <;> cases h <;> decide)
    (by
      intro k hk t ⟨e, he, ht⟩ n hn j hj
      simp only [List.mem_cons, List.not_mem_nil, or_false] at hk
      have : t = ([], 5) ∨ t = ([1, 7, 9], 20) ∨ t = ([], 3) ∨ t = ([0], 3) ∨ t = ([], 4) := by
        simp only [history, List.mem_cons, List.not_mem_nil, or_false] at he
        rcases ht with ht | ht | ⟨m, ht⟩
        · have h1 : disk k = .ok t := by rcases he with rfl | rfl | rfl | rfl | rfl <;> exact ht
          unfold disk at h1
          split at h1
          · cases h1; exact .inl rfl
          · cases h1
        · rcases he with rfl | rfl | rfl | rfl | rfl <;> cases ht <;> decide
        · rcases he with rfl | rfl | rfl | rfl | rfl <;> cases ht <;> decide
      rcases this with rfl | rfl | rfl | rfl | rfl <;> simp only [L, List.mem_cons, List.not_mem_nil, or_false] at hn
      · rcases hn with rfl | rfl | rfl <;> simp only [L] at hj <;> revert hj <;> simp <;> omega
      · subst hn; simp only [L] at hj; revert hj; simp; omega)
    (by decide)
  obtain ⟨contents, c1, c2, c3, c4⟩ := server_fresh L diags id (fun _ _ => Iff.rfl) 10 history hone s hs disk
  obtain ⟨u, d1, d2, d3⟩ := c3 0 (by decide)
  have hu : (go history).bind (fun s => (find 0 s.comps).bind (·.unit)) = some 224 := by decide +kernel
  have hgo : go history = some s := hs
  rw [hgo] at hu
  have : u = 224 := by
    have h : (find 0 s.comps).bind (·.unit) = some 224 := hu
    rw [d1] at h
    exact Option.some.inj h
  subst this
  refine ⟨s, hgo, contents, c1 0 _ (by decide), c1 1 _ (by decide), ?_, d2, d3, d1, (c4 1 (by decide)).1⟩
  rcases c2 7 (by decide) with h | ⟨e, he, h⟩
  · rw [h]; rfl
  · rw [h]
    simp only [history, List.mem_cons, List.not_mem_nil, or_false] at he
    rcases he with rfl | rfl | rfl | rfl | rfl <;> rfl

/-! ### Where the claim fails -/

/-- Only the first of several texts in one change is used (`content_changes[0]`): what is shown is not what the editor has.  The protocol says that the changes apply one after another. -/
theorem batched_change_uses_first : ∃ s, go [(disk, .opened 0 ([], 1)), (disk, .changed 0 ([], 2) [([], 3)])] = some s ∧ find 0 s.sent = some [2] ∧
    ∀ contents : Disk Nat (List Nat × Nat) Unit,
      (∀ k t, latest k [(disk, .opened 0 ([], 1)), (disk, .changed 0 ([], 2) [([], 3)])] = some t → contents k = .ok t) → specUnit L contents 10 0 = some 3 := by
  match h : go [(disk, .opened 0 ([], 1)), (disk, .changed 0 ([], 2) [([], 3)])] with
  | none => exact absurd h (by decide +kernel)
  | some s =>
    have h1 : (go [(disk, .opened 0 ([], 1)), (disk, .changed 0 ([], 2) [([], 3)])]).bind (fun s => find 0 s.sent) = some [2] := by decide +kernel
    rw [h] at h1
    refine ⟨s, rfl, h1, fun contents hc => ?_⟩
    unfold specUnit
    rw [hc 0 ([], 3) (by decide)]
    rfl

/-- A file that is closed without saving keeps its unsaved text for the files that import it, and a change on the disk is not seen: file 1 has the number 6 on the disk and is not open, and
file 0, opened after that, is compiled with the number 3. -/
theorem closed_file_keeps_unsaved_text : ∃ s, go [(disk, .opened 1 ([], 3)), (disk', .closed 1), (disk', .opened 0 ([1], 20))] = some s ∧ find 0 s.sent = some [23] ∧
    specUnit L (fun k => if k = 0 then .ok ([1], 20) else disk' k) 10 0 = some 26 := by
  match h : go [(disk, .opened 1 ([], 3)), (disk', .closed 1), (disk', .opened 0 ([1], 20))] with
  | none => exact absurd h (by decide +kernel)
  | some s =>
    have h1 : (go [(disk, .opened 1 ([], 3)), (disk', .closed 1), (disk', .opened 0 ([1], 20))]).bind (fun s => find 0 s.sent) = some [23] := by decide +kernel
    rw [h] at h1
    exact ⟨s, rfl, h1, by decide +kernel⟩

end Tic.Server.Example
