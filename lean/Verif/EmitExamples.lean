import Verif.PropEmit
import Verif.GenExamples
/-
C41: a program that meets the hypotheses, and one on which the compiler panics.
-/
namespace Tic.Front
open Tic.Unify (Symbol IrTy)
open Tic.Core

/-! ### Depth -/

theorem passes_le {k k' : Nat} (hk : k ≤ k') : ∀ f ∈ passFns, ∀ r, (f k r).Le (f k' r) := by
  have hin : ∀ r : Prog, (orTimeout (inlinePass k r.2 r.1)).Le (orTimeout (inlinePass k' r.2 r.1)) := by
    intro r
    cases h : inlinePass k r.2 r.1 with
    | none => exact .inl rfl
    | some x => rw [inlinePass_le hk h]; exact .inr rfl
  intro f hf r
  simp only [passFns, List.mem_cons, List.not_mem_nil, or_false] at hf
  rcases hf with rfl | rfl | rfl | rfl | rfl | rfl | rfl | rfl | rfl | rfl
  all_goals first | exact hin r | exact .refl _

theorem runChecked_le {on : Bool} {k k' : Nat} : ∀ {fs : List (Nat → Prog → Res Prog)}, (∀ f ∈ fs, ∀ r, (f k r).Le (f k' r)) → ∀ r,
    (runPasses ((fs.map fun f => f k).map fun f r => (f r).bind (verifyStep on)) r).Le (runPasses ((fs.map fun f => f k').map fun f r => (f r).bind (verifyStep on)) r)
  | [], _, _ => .refl _
  | f :: fs, h, r => ((h f (by simp) r).bind fun _ _ => .refl _).bind fun r1 _ => runChecked_le (fun f hf => h f (by simp [hf])) r1

theorem checkedIteration_le (on : Bool) {k k' : Nat} (hk : k ≤ k') (r : Prog) : (checkedIteration on k r).Le (checkedIteration on k' r) := by
  simp only [checkedIteration, checkedPasses, passes_eq]
  exact (Res.Le.refl _).bind fun r1 _ => runChecked_le (passes_le hk) r1

/-- If the first turn of the optimizer panics, so does `emit_core`, whatever the hash is and however
far the inliner may go. -/
theorem emitCore_panics {hash : Prog → UInt64} {k k' : Nat} {on : Bool} {I : Symbol → Option Builtin} {items : List Item} {r : Prog}
    (h1 : generated I items = some r) (h2 : checkedIteration on k r = .panic) (hk : k ≤ k') : emitCore hash k' ⟨on, true⟩ I items = .panic := by
  have h3 : checkedIteration on k' r = .panic := by
    rw [(checkedIteration_le on hk r).eq (by rw [h2]; simp), h2]
  simp only [emitCore, h1]
  cases hv : verifyStep on r with
  | ok r' =>
    have : r' = r := by
      cases on
      · simp [verifyStep] at hv; exact hv.symm
      · exact (verifyStep_ok hv).1
    subst this
    simp only [Res.bind_ok, checkedOptimize, if_true, checkedLoop, h3]
    rfl
  | panic => rfl
  | timeout => simp [verifyStep] at hv; split at hv <;> (try split at hv) <;> cases hv
  | trap m => simp [verifyStep] at hv; split at hv <;> (try split at hv) <;> cases hv

/-! ### Finding: the compiler panics on a valid program -/

/-- `let k = 1 + 1 + 1; MkBox (\x -> x) (k + 1)`. -/
def iceBox : Ex Unit :=
  .let_ 8 [] none () (.binary .add (.binary .add (.number 1) (.number 1)) (.number 1))
    (.apply (.apply (.name 3 []) (.lambda false 9 () () (.name 9 []))) (.binary .add (.name 8 []) (.number 1)))

/-- `\u -> match (match u with U -> box end) with MkBox f n -> f n end`. -/
def iceRun : Ex Unit :=
  .lambda false 11 () () (.match_ (.match_ (.name 11 []) () [.mk 5 [] (.name 6 [])]) ()
    [.mk 3 [(12, ()), (13, ())] (.apply (.name 12 []) (.name 13 []))])

/-- The annotated expressions. -/
def iceBoxTyped : Ex IrTy :=
  .let_ 8 [] none .int (.binary .add (.binary .add (.number 1) (.number 1)) (.number 1))
    (.apply (.apply (.name 3 [.named 7 []]) (.lambda false 9 (.named 7 []) (.fn (.named 7 []) (.named 7 [])) (.name 9 []))) (.binary .add (.name 8 []) (.number 1)))

/-- ... of `run`. -/
def iceRunTyped : Ex IrTy :=
  .lambda false 11 (.named 4 []) (.fn (.named 4 []) .int) (.match_ (.match_ (.name 11 []) (.named 4 []) [.mk 5 [] (.name 6 [.int])]) (.named 1 [.int])
    [.mk 3 [(12, .fn .int .int), (13, .int)] (.apply (.name 12 []) (.name 13 []))])

/-- `type Box a = MkBox (a -> a) int; type Unit = U; box : Box a; export run : Unit -> int; export five : int = run U`. -/
def iceItems : List Item := [
  .type ⟨1, [2], [(3, [.ty (.fn (.named 2 []) (.named 2 [])), .ty .int])]⟩,
  .type ⟨4, [], [(5, [])]⟩,
  .value 6 none ⟨[7], .named 1 [.named 7 []]⟩ iceBoxTyped,
  .value 10 (some "run") ⟨[], .fn (.named 4 []) .int⟩ iceRunTyped]

/-- No symbol is built in. -/
def noBuiltins : Symbol → Option Builtin := fun _ => none

/-- The definitions of the module. -/
def iceDefs : Symbol → Option DefKind
  | 3 => some (.ctor ⟨1, [2], [.ty (.fn (.named 2 []) (.named 2 [])), .ty .int]⟩ (ctorTy ⟨1, [2], [.ty (.fn (.named 2 []) (.named 2 [])), .ty .int]⟩))
  | 5 => some (.ctor ⟨4, [], []⟩ (ctorTy ⟨4, [], []⟩))
  | 6 => some (.value ⟨[7], .named 1 [.named 7 []]⟩)
  | 8 | 9 | 11 | 12 | 13 => some (.value ⟨[], .infer⟩)
  | _ => none

example : (typeCheck 30 iceDefs [3, 8, 9] (.named 1 [.named 7 []]) iceBox) = some ⟨[], iceBoxTyped⟩ := by rfl
example : (typeCheck 30 iceDefs [3, 5, 6, 11, 12, 13] (.fn (.named 4 []) .int) iceRun) = some ⟨[], iceRunTyped⟩ := by rfl

/-- Whether a result is a panic. -/
def isPanic : Res Prog → Bool
  | .panic => true
  | _ => false

theorem ice_panics : (generated noBuiltins iceItems).map (fun r => isPanic (checkedIteration true 40 r)) = some true := by decide +kernel
/-- The declared types. -/
def iceDecls : List TypeDecl := [⟨4, [], [(5, [])]⟩, ⟨1, [2], [(3, [.ty (.fn (.named 2 []) (.named 2 [])), .ty .int])]⟩]

theorem iceDefs_ok : DefsOK iceDecls iceDefs := by
  constructor
  · intro s sch h hn
    unfold iceDefs at h
    split at h <;> cases h
    · exact ⟨by simp [declOf, iceDecls], [7], by simp [WfTy, WfTys, arity, declOf, iceDecls]⟩
    all_goals exact absurd rfl hn
  · intro c d f h
    unfold iceDefs at h
    split at h <;> cases h
    · exact ⟨rfl, _, rfl, rfl, by simp, by simp [declOf, iceDecls], by simp [WfTy, WfTys, arity, declOf, iceDecls]⟩
    · exact ⟨rfl, _, rfl, rfl, by simp, by simp [declOf, iceDecls], by simp⟩

theorem iceRun_covered : Covered iceDecls iceRunTyped := by
  intro p hp d dty cases he
  simp only [iceRunTyped, nodes, caseNodes, List.cons_append, List.nil_append, List.append_nil, List.mem_cons, List.not_mem_nil, or_false] at hp
  rcases hp with rfl | rfl | rfl | rfl | rfl | rfl | rfl | rfl <;> cases he <;> rfl

/-- The front end accepts the program ... -/
theorem iceItems_accepted : Accepteds noBuiltins {} iceItems := by
  simp only [iceItems, Accepteds, Accepted, World.item, World.items, ctorCtx, List.not_mem_nil, if_false, false_or, and_true]
  refine ⟨?_, ?_, ?_, ?_⟩
  · refine ⟨by simp [New, noBuiltins], ?_⟩
    simp [Plain, Plains, WfTy, WfTys, arity, declOf, maxFields]
  · refine ⟨by simp [New, noBuiltins], ?_⟩
    simp [maxFields]
  · refine ⟨?_, ?_, ?_, ?_, ?_, fun _ => ?_, fun _ => ?_, fun _ => ?_, fun _ => ?_⟩
    · simp [New, binderSyms, Ex.erase, noBuiltins, iceBoxTyped]
    · simp [Plain, Plains]
    · simp [WfTy, WfTys, arity, declOf]
    · intro b h; cases h
    · simp [iceBoxTyped, PlainLets, Ex.erase]
    · refine ⟨iceDefs, [3, 8, 9], [(3, ⟨[2], ctorTy ⟨1, [2], [.ty (.fn (.named 2 []) (.named 2 [])), .ty .int]⟩⟩)], iceBox, 30, iceDefs_ok, ?_, ?_, ?_, by rfl⟩
      · intro s sch h
        simp only [Ctx.find] at h
        split at h
        · rename_i e; subst e; cases h; exact ⟨by simp, .inr ⟨_, _, rfl, rfl⟩⟩
        · cases h
      · intro s sch h
        simp only [Ctx.find] at h
        split at h
        · rename_i e; subst e; exact h
        · cases h
      · simp [iceBox, Scoped, iceDefs]
    · exact covered_trivial (by simp [iceBoxTyped, nodes])
    · simp [NoEscape, iceBoxTyped, nodes, annots, tySyms, tysSyms, ownVars, declOf]
    · simp [NoNestedFold, iceBoxTyped, nodes]
  · refine ⟨?_, ?_, ?_, ?_, ?_, fun _ => ?_, fun _ => ?_, fun _ => ?_, fun _ => ?_⟩
    · simp [New, binderSyms, casesBinderSyms, casesErase, Ex.erase, noBuiltins, iceBoxTyped, iceRunTyped]
    · simp [Plain, Plains]
    · simp [WfTy, WfTys, arity, declOf]
    · intro b h; cases h
    · simp [iceRunTyped, PlainLets, PlainLetsCases, casesErase, Ex.erase]
    · refine ⟨iceDefs, [3, 5, 6, 11, 12, 13], [(3, ⟨[2], ctorTy ⟨1, [2], [.ty (.fn (.named 2 []) (.named 2 [])), .ty .int]⟩⟩), (5, ⟨[], ctorTy ⟨4, [], []⟩⟩), (6, ⟨[7], .named 1 [.named 7 []]⟩)], iceRun, 30, iceDefs_ok, ?_, ?_, ?_, by rfl⟩
      · intro s sch h
        simp only [Ctx.find] at h
        split at h
        · rename_i e; subst e; cases h; exact ⟨by simp, .inr ⟨_, _, rfl, rfl⟩⟩
        split at h
        · rename_i e; subst e; cases h; exact ⟨by simp, .inr ⟨_, _, rfl, rfl⟩⟩
        split at h
        · rename_i e; subst e; cases h; exact ⟨by simp, .inl ⟨rfl, by simp⟩⟩
        · cases h
      · intro s sch h
        simp only [Ctx.find] at h
        split at h
        · rename_i e; subst e; exact h
        split at h
        · rename_i e; subst e; exact h
        split at h
        · rename_i e; subst e; exact h
        · cases h
      · simp [iceRun, Scoped, ScopedCases, iceDefs, declOf]
    · exact iceRun_covered
    · simp [NoEscape, iceRunTyped, nodes, caseNodes, annots, tySyms, tysSyms, ownVars, declOf]
    · simp [NoNestedFold, iceRunTyped, nodes, caseNodes]

theorem iceItems_formed : Formeds noBuiltins iceItems := by
  simp [iceItems, Formeds, Formed, noBuiltins]

/-- What the exports are when `emit_core` returns a program. -/
def emittedRuns (n : Nat) : Res Prog → Option (Res (List Obs))
  | .ok r => some (runExports n r.1)
  | _ => none

/-- **Finding.**  A program the front end accepts, on which `emit_core` panics with both options on
(the default), although it returns a program if either is turned off.  `box` is inlined by the second
inlining pass of a turn, after `reduce_pi` has run, and `merge_match` then moves the branch of the
outer match under the type abstraction, where the constructor's fields have other types than outside:
the verifier rejects the result. -/
theorem emit_core_may_panic : Accepteds noBuiltins {} iceItems ∧ Formeds noBuiltins iceItems ∧
    (∀ hash k, 40 ≤ k → emitCore hash k ⟨true, true⟩ noBuiltins iceItems = .panic) ∧
    emittedRuns 40 (emitCore (fun _ => 0) 40 ⟨false, true⟩ noBuiltins iceItems) = some (.ok [.fn]) ∧
    emittedRuns 40 (emitCore (fun _ => 0) 40 ⟨true, false⟩ noBuiltins iceItems) = some (.ok [.fn]) := by
  refine ⟨iceItems_accepted, iceItems_formed, fun hash k hk => ?_, by decide +kernel, by decide +kernel⟩
  have h := ice_panics
  cases hg : generated noBuiltins iceItems with
  | none => rw [hg] at h; cases h
  | some r =>
    refine emitCore_panics (k := 40) hg ?_ hk
    rw [hg] at h
    have h : isPanic (checkedIteration true 40 r) = true := Option.some.inj h
    cases hc : checkedIteration true 40 r with
    | panic => rfl
    | _ => rw [hc] at h; cases h

/-! ### A program that is compiled -/

/-- The theorem applies to the example of C38, and with the default options a program comes out that
computes 6 and `Some 1024`. -/
example : Accepteds exI {} exItems ∧ Formeds exI exItems := ⟨exItems_accepted, exItems_formed⟩
example : emittedRuns 60 (emitCore (fun r => r.1.defs.length.toUInt64) 60 ⟨true, true⟩ exI exItems) = some (.ok [.int 6, .comp 9 [.int 1024]]) := by decide +kernel
example : emittedRuns 60 (emitCore (fun r => r.1.defs.length.toUInt64) 60 ⟨false, true⟩ exI exItems) = some (.ok [.int 6, .comp 9 [.int 1024]]) := by decide +kernel

end Tic.Front
