import Verif.PropMeaning
import Verif.GenExamples
/-
C39: examples.
-/
namespace Tic.Front
open Tic.Unify (Symbol IrTy)
open Tic.Core

/-- `fold n -> match n with Z -> 0 | S m -> m + 1 end`. -/
def countTyped : Ex IrTy :=
  .lambda true 10 (.folded (.named 1 []) .int) (.fn (.named 1 []) .int)
    (.match_ (.name 10 []) (.folded (.named 1 []) .int)
      [.mk 2 [] (.number 0), .mk 3 [(11, .int)] (.binary .add (.name 11 []) (.number 1))])

/-- `type Nat = Z | S rec`, the function above, and an export `two` of the number of `S (S Z)`. -/
def countItems : List Item := [
  .type ⟨1, [], [(2, []), (3, [.rec_])]⟩,
  .value 4 none ⟨[], .fn (.named 1 []) .int⟩ countTyped,
  .value 5 (some "two") ⟨[], .int⟩ (.apply (.name 4 []) (.apply (.name 3 []) (.apply (.name 3 []) (.name 2 []))))]

/-- The value of the fold. -/
def countVal : SVal := .foldFn true [(3, .part (.ctor 3 1) []), (2, .comp 2 [])] 10
  (.match_ (.name 10 []) false [.mk 2 [] (.number 0), .mk 3 [(11, false)] (.binary .add (.name 11 []) (.number 1))])

/-- The meaning of the module, derived by the rules of the semantics alone. -/
example : Means (fun _ => none) countItems (.ok [(5, .int 2), (4, countVal), (3, .part (.ctor 3 1) []), (2, .comp 2 [])]) := by
  have z : ∀ T, T 2 = some [] → Ap T countVal (.comp 2 []) (.ok (.int 0)) := fun T h =>
    .fold h .nil (.match_ (.name rfl) rfl rfl .number)
  have s : ∀ T x k, T 3 = some [.rec_] → Ap T countVal x (.ok (.int k)) → Ap T countVal (.comp 3 [x]) (.ok (.int (k + 1))) := fun T x k h hx =>
    .fold h (.rec_ hx .nil) (.match_ (.name rfl) rfl rfl (.binary (.name rfl) .number))
  refine .cons .type (.cons (.value rfl .fold) (.cons (.value rfl (.apply (.name rfl) (.apply (.name rfl) (.apply (.name rfl) (.name rfl) (.full rfl rfl)) (.full rfl rfl)) ?_)) .nil))
  exact s _ _ 1 rfl (s _ _ 0 rfl (z _ rfl))

/-- A hole stops the module with its message. -/
example : Means (fun _ => none) [.value 1 (some "a") ⟨[], .int⟩ (.binary .add (.number 1) (.hole "?todo" .int)), .value 2 (some "b") ⟨[], .int⟩ (.number 2)]
    (.trap "encountered ?todo") := .consL (.valueL rfl (.binaryR .number .hole))

/-- `accepted_program_means` applies to the module of `GenExamples`, which folds over a list, applies
`iterate` and builds an `Option`: the source value of `six` is `6`, and that of `power` is a
constructor applied to `1024`. -/
example : ∃ σ, Means exI exItems (.ok σ) ∧ SEnv.find σ 60 = some (.int 6) ∧ ∃ c, SEnv.find σ 61 = some (.comp c [.int 1024]) := by
  obtain ⟨o, p, R, N, h1, -, h2, -, h3, h4⟩ := accepted_program_means exItems_accepted
  have hp := exItems_run
  rw [h2] at hp
  have hr : runExports (N + 40) p = _ := runExports_mono (by omega) (Option.some.inj hp) (by simp)
  specialize h4 (N + 40) (by omega)
  cases o with
  | trap m => rw [hr] at h4; cases h4
  | ok σ =>
    rw [hr] at h4
    refine ⟨σ, h1, ?_⟩
    obtain ⟨⟨V, v1, v2⟩, ⟨⟨W, w1, w2⟩, -⟩⟩ := h4
    cases v2
    refine ⟨v1, ?_⟩
    cases w2 with
    | @comp c _ Vs _ k1 k2 k3 =>
      refine ⟨c, ?_⟩
      match Vs, k2, k3 with
      | [V], _, k3 =>
        have := k3 0 V _ rfl rfl
        cases this
        exact w1

end Tic.Front
