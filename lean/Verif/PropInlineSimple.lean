import Verif.InlineSimpleOK
import Verif.PropReduce
/-
C14: `inline_simple` keeps every value.
-/
namespace Tic.Core

/-- Every value is kept: if asking `es` of `p` gives values, asking them of `p'` gives the
same values; and `p'` can trap, crash or give other values only where `p` gives none. -/
structure KeepsValues (p p' : Program) (es : List Expr) : Prop where
  keeps : ∀ os, Yields p es os → Yields p' es os
  noOther : ∀ os, Yields p es os → ∀ os', Yields p' es os' → os' = os
  noTrap : ∀ os, Yields p es os → ∀ m, ¬ Traps p' es m
  noPanic : ∀ os, Yields p es os → ¬ Panics p' es

theorem evalProgram_le {n m : Nat} (h : n ≤ m) (p : Program) (es : List Expr) : (evalProgram n p es).Le (evalProgram m p es) := by
  unfold evalProgram
  exact (evalDefs_le h _ _).bind fun ρ _ => evalList_le (eval_le h ρ) es

/-- A program has one outcome. -/
theorem outcome_unique {p : Program} {es : List Expr} {n m : Nat} (hn : evalProgram n p es ≠ .timeout)
    (hm : evalProgram m p es ≠ .timeout) : evalProgram n p es = evalProgram m p es := by
  rw [← (evalProgram_le (Nat.le_max_left n m) p es).eq hn, (evalProgram_le (Nat.le_max_right n m) p es).eq hm]

theorem keepsValues_of {p p' : Program} {es : List Expr} (h : ∀ os, Yields p es os → Yields p' es os) : KeepsValues p p' es := by
  refine ⟨h, fun os ho os' ⟨n, vs, h1, h2⟩ => ?_, fun os ho m ⟨n, h1⟩ => ?_, fun os ho ⟨n, h1⟩ => ?_⟩ <;>
    obtain ⟨n', vs', h3, h4⟩ := h os ho
  · have := outcome_unique (n := n) (m := n') (p := p') (es := es) (by rw [h1]; simp) (by rw [h3]; simp)
    rw [h1, h3] at this
    cases this
    rw [← h2, h4]
  · have := outcome_unique (n := n) (m := n') (p := p') (es := es) (by rw [h1]; simp) (by rw [h3]; simp)
    rw [h1, h3] at this; cases this
  · have := outcome_unique (n := n) (m := n') (p := p') (es := es) (by rw [h1]; simp) (by rw [h3]; simp)
    rw [h1, h3] at this; cases this

theorem lax_lax : Mode.Lax lax := ⟨rfl, rfl⟩

/-- C14.  Inlining values that are used once keeps a program well named and keeps every
value. -/
theorem inlineSimple_preserves {p : Program} (hp : WellNamed p) :
    WellNamed (inlineSimple p) ∧ ∀ es, Asks p es → KeepsValues p (inlineSimple p) es := by
  have h := mapDefs_ok (s := lax) (g := fun e => walkPreN (esize e) inlineSimpleStep e)
    (fun X e he => (stepOK_inlineSimple lax_lax).walkPreN _ X e he) hp
  exact ⟨h.1, fun es hes => keepsValues_of (h.2 es hes).yields.1⟩

/-! ### A concrete program -/

/-- `f = \x. let a = x + 1; let g = \y. y * 2; if x < 5 then g(a) else 0`. -/
def exInline : Program where
  types := []
  defs := [⟨0, some "f", .fn [.int] .int, .lam [(1, .int)]
    (.let_ 2 (.op (.name 1) .add (.int 1)) (.let_ 3 (.lam [(4, .int)] (.op (.name 4) .multiply (.int 2)))
      (.ite (.op (.name 1) .less (.int 5)) (.call (.name 3) [.name 2]) (.int 0))))⟩]

example : WellNamed exInline := wnB_ok (by decide)
example : Asks exInline [.call (.name 0) [.int 3]] := by
  intro e he x hx
  simp only [List.mem_cons, List.not_mem_nil, or_false] at he
  subst he; simp [Free, FreeL] at hx; subst hx; simp [exInline]
example : Yields exInline [.call (.name 0) [.int 3]] [.int 8] := ⟨20, [.int 8], by rfl, rfl⟩
/-- Both bindings are gone. -/
example : ((inlineSimple exInline).defs.map (·.value)) = [.lam [(1, .int)]
    (.ite (.op (.name 1) .less (.int 5)) (.call (.lam [(4, .int)] (.op (.name 4) .multiply (.int 2))) [.op (.name 1) .add (.int 1)]) (.int 0))] := by rfl

/-- Traps are not kept: `let a = trap; if false then a else 0` traps before the pass and
gives `0` after it. -/
example : let p : Program := ⟨[], [⟨0, some "m", .int, .let_ 1 (.trap "t" .int) (.ite (.bool false) (.name 1) (.int 0))⟩]⟩
    Traps p [.name 0] "t" ∧ Yields (inlineSimple p) [.name 0] [.int 0] :=
  ⟨⟨20, by rfl⟩, ⟨20, [.int 0], by rfl, rfl⟩⟩

end Tic.Core
