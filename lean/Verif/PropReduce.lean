import Verif.ReduceOK
import Verif.WnCheck
/-
C12, C13: `reduce_pi` and `reduce_apply` change no outcome.
-/
namespace Tic.Core

/-- Same outcomes: the same values as seen from outside, the same trap message, or a
crash in both; a run without outcome in one is a run without outcome in the other. -/
structure SameOutcomes (p p' : Program) (es : List Expr) : Prop where
  yields : ∀ os, Yields p es os ↔ Yields p' es os
  traps : ∀ m, Traps p es m ↔ Traps p' es m
  panics : Panics p es ↔ Panics p' es

/-- The mode in which traps and crashes are preserved too. -/
abbrev strict : Mode := ⟨true, true⟩
/-- The mode in which only values are preserved. -/
abbrev lax : Mode := ⟨false, false⟩

theorem sameOutcomes_of {p p' : Program} {es : List Expr}
    (h : OutSim strict (fun v v' => obsList v = obsList v') (fun n => evalProgram n p es) (fun n => evalProgram n p' es))
    (h' : OutSim strict (fun v v' => obsList v = obsList v') (fun n => evalProgram n p' es) (fun n => evalProgram n p es)) :
    SameOutcomes p p' es := by
  obtain ⟨a, b, c⟩ := h.yields
  obtain ⟨a', b', c'⟩ := h'.yields
  exact ⟨fun os => ⟨a os, a' os⟩, fun m => ⟨b rfl m, b' rfl m⟩, ⟨c rfl, c' rfl⟩⟩

/-- C12.  Reducing applied type abstractions keeps a program well named and keeps
every outcome of every question about its definitions. -/
theorem reducePi_preserves {p : Program} (hp : WellNamed p) :
    WellNamed (reducePi p) ∧ ∀ es, Asks p es → SameOutcomes p (reducePi p) es := by
  have h := mapDefs_ok (s := strict) (fun X e he => stepOK_reducePi.walkPost he) hp
  exact ⟨h.1, fun es hes => sameOutcomes_of (h.2 es hes)
    (mapDefs_back (s := strict) (fun X e he => stepOK_reducePi.walkPost he) hp es hes)⟩

/-- C13.  Turning applied lambdas into `let`s keeps a program well named and keeps
every outcome of every question about its definitions. -/
theorem reduceApply_preserves {p : Program} (hp : WellNamed p) :
    WellNamed (reduceApply p) ∧ ∀ es, Asks p es → SameOutcomes p (reduceApply p) es := by
  have h := mapDefs_ok (s := strict) (fun X e he => stepOK_reduceApply.walkPost he) hp
  exact ⟨h.1, fun es hes => sameOutcomes_of (h.2 es hes)
    (mapDefs_back (s := strict) (fun X e he => stepOK_reduceApply.walkPost he) hp es hes)⟩

/-! ### A concrete program -/

/-- `id = Pi a. \x : a. x; f = \y. (let k = 3; \z. y + z + k)(id [Int] (7))`. -/
def exReduce : Program where
  types := []
  defs := [
    ⟨0, some "id", .abs 0 (.fn [.var 0] (.var 0)), .pi 0 (.lam [(1, .var 0)] (.name 1))⟩,
    ⟨2, some "f", .fn [.int] .int, .lam [(3, .int)]
      (.call (.let_ 4 (.int 3) (.lam [(5, .int)] (.op (.op (.name 3) .add (.name 5)) .add (.name 4))))
        [.call (.piApp (.pi 1 (.lam [(6, .var 1)] (.name 6))) .int) [.int 7]])⟩]

/-- Asks for `id [Int] (1)` and `f(10)`. -/
def exReduceAsk : List Expr := [.call (.piApp (.name 0) .int) [.int 1], .call (.name 2) [.int 10]]

example : WellNamed exReduce := wnB_ok (by decide)
example : Asks exReduce exReduceAsk := by
  intro e he x hx
  simp only [exReduceAsk, List.mem_cons, List.not_mem_nil, or_false] at he
  rcases he with rfl | rfl <;> simp [Free, FreeL] at hx <;> subst hx <;> simp [exReduce]
example : Yields exReduce exReduceAsk [.int 1, .int 20] := ⟨20, [.int 1, .int 20], by rfl, rfl⟩

/-- The type application is gone, the parameter type is instantiated. -/
example : ((reducePi exReduce).defs.map (·.value))[1]? = some (.lam [(3, .int)]
      (.call (.let_ 4 (.int 3) (.lam [(5, .int)] (.op (.op (.name 3) .add (.name 5)) .add (.name 4))))
        [.call (.lam [(6, .int)] (.name 6)) [.int 7]])) := by rfl

/-- Both calls have become `let`s. -/
example : ((reduceApply (reducePi exReduce)).defs.map (·.value))[1]? = some (.lam [(3, .int)]
      (.let_ 4 (.int 3) (.let_ 5 (.let_ 6 (.int 7) (.name 6)) (.op (.op (.name 3) .add (.name 5)) .add (.name 4))))) := by rfl

end Tic.Core
