import Verif.GenChecked
import Verif.TypeckExamples
/-
C38: a program that meets the hypotheses and its result, and programs that show why the conditions
are needed.
-/
namespace Tic.Front
open Tic.Unify (Symbol IrTy)
open Tic.Core

/-- The symbol of `iterate`. -/
def exI : Symbol → Option Builtin
  | 50 => some .iterate
  | _ => none

/-- `int -> (a -> a) -> a -> a`. -/
def iterateTy : IrTy := .fn .int (.fn (.fn (.named 51 []) (.named 51 [])) (.fn (.named 51 []) (.named 51 [])))

/-- The definitions the items `six` and `power` may mention. -/
def exDefs2 : Symbol → Option DefKind
  | 9 => some (.value ⟨[], .fn (.named 1 [.int]) .int⟩)
  | 50 => some (.value ⟨[51], iterateTy⟩)
  | 62 => some (.value ⟨[], .infer⟩)
  | s => exDefs s

/-- `sum (Cons 1 (Cons 2 (Cons 3 Nil)))`. -/
def sixSrc : Ex Unit :=
  .apply (.name 9 []) (.apply (.apply (.name 4 []) (.number 1)) (.apply (.apply (.name 4 []) (.number 2)) (.apply (.apply (.name 4 []) (.number 3)) (.name 3 []))))

/-- `iterate 10 (\x -> x + x) 1 | Some`. -/
def powerSrc : Ex Unit :=
  .pipe (.apply (.apply (.apply (.name 50 []) (.number 10)) (.lambda false 62 () () (.binary .add (.name 62 []) (.name 62 [])))) (.number 1)) (.name 8 [])

/-- The annotated expressions. -/
def sixTyped : Ex IrTy :=
  .apply (.name 9 []) (.apply (.apply (.name 4 [.int]) (.number 1)) (.apply (.apply (.name 4 [.int]) (.number 2)) (.apply (.apply (.name 4 [.int]) (.number 3)) (.name 3 [.int]))))

/-- ... of `power`. -/
def powerTyped : Ex IrTy :=
  .pipe (.apply (.apply (.apply (.name 50 [.int]) (.number 10)) (.lambda false 62 .int (.fn .int .int) (.binary .add (.name 62 []) (.name 62 [])))) (.number 1)) (.name 8 [.int])

example : typeCheck 20 exDefs2 [3, 4, 9] .int sixSrc = some ⟨[], sixTyped⟩ := by rfl
example : typeCheck 20 exDefs2 [8, 50, 62] (.named 5 [.int]) powerSrc = some ⟨[], powerTyped⟩ := by rfl

/-- A module that imports the intrinsics, declares `Option` and `List`, and exports `six` and
`power`. -/
def exItems : List Item := [
  .imports 0 [.value 50 (some "iterate") ⟨[51], iterateTy⟩ (.hole "?intrinsic" iterateTy)],
  .type ⟨5, [6], [(7, []), (8, [.ty (.named 6 [])])]⟩,
  .type ⟨1, [2], [(3, []), (4, [.ty (.named 2 []), .rec_])]⟩,
  .value 9 none ⟨[], .fn (.named 1 [.int]) .int⟩ exSumTyped,
  .value 60 (some "six") ⟨[], .int⟩ sixTyped,
  .value 61 (some "power") ⟨[], .named 5 [.int]⟩ powerTyped]

mutual
/-- Equality of observations is decidable. -/
def obsEq : (a b : Obs) → Decidable (a = b)
  | .int x, .int y => if h : x = y then isTrue (by rw [h]) else isFalse fun e => h (by cases e; rfl)
  | .bool x, .bool y => if h : x = y then isTrue (by rw [h]) else isFalse fun e => h (by cases e; rfl)
  | .str x, .str y => if h : x = y then isTrue (by rw [h]) else isFalse fun e => h (by cases e; rfl)
  | .comp t xs, .comp u ys => if h : t = u then match obsesEq xs ys with
    | isTrue h' => isTrue (by rw [h, h'])
    | isFalse h' => isFalse fun e => h' (by cases e; rfl)
    else isFalse fun e => h (by cases e; rfl)
  | .fn, .fn => isTrue rfl
  | .int _, .bool _ | .int _, .str _ | .int _, .comp .. | .int _, .fn => isFalse fun e => nomatch e
  | .bool _, .int _ | .bool _, .str _ | .bool _, .comp .. | .bool _, .fn => isFalse fun e => nomatch e
  | .str _, .int _ | .str _, .bool _ | .str _, .comp .. | .str _, .fn => isFalse fun e => nomatch e
  | .comp .., .int _ | .comp .., .bool _ | .comp .., .str _ | .comp .., .fn => isFalse fun e => nomatch e
  | .fn, .int _ | .fn, .bool _ | .fn, .str _ | .fn, .comp .. => isFalse fun e => nomatch e
/-- ... of lists of observations. -/
def obsesEq : (a b : List Obs) → Decidable (a = b)
  | [], [] => isTrue rfl
  | x :: xs, y :: ys => match obsEq x y, obsesEq xs ys with
    | isTrue h, isTrue h' => isTrue (by rw [h, h'])
    | isFalse h, _ => isFalse fun e => h (by cases e; rfl)
    | _, isFalse h => isFalse fun e => h (by cases e; rfl)
  | [], _ :: _ | _ :: _, [] => isFalse fun e => nomatch e
end

instance : DecidableEq Obs := obsEq

/-- It computes 6 and `Some 1024` (9 is the name of `Some`). -/
theorem exItems_run : (generateCore exI exItems).map (runExports 40) = some (.ok [.int 6, .comp 9 [.int 1024]]) := by decide +kernel

theorem exDefs2_ok : DefsOK exDecls exDefs2 := by
  constructor
  · intro s sch h hn
    unfold exDefs2 at h
    split at h
    · cases h
      exact ⟨by simp [declOf, exDecls], [], by simp [WfTy, WfTys, arity, declOf, exDecls]⟩
    · cases h
      exact ⟨by simp [declOf, exDecls], [51], by simp [iterateTy, WfTy, WfTys, arity, declOf, exDecls]⟩
    · cases h; exact absurd rfl hn
    · exact exDefs_ok.value s sch h hn
  · intro c d f h
    unfold exDefs2 at h
    split at h
    · cases h
    · cases h
    · cases h
    · exact exDefs_ok.ctor c d f h

theorem covered_trivial {Δ : List TypeDecl} {e : Ex IrTy} (h : ∀ p ∈ nodes [] e, ∀ d dty cases, p.2 ≠ .match_ d dty cases) : Covered Δ e :=
  fun p hp d dty cases he => absurd he (h p hp d dty cases)

/-- The program meets the hypotheses of `accepted_program_runs`. -/
theorem exItems_accepted : Accepteds exI {} exItems := by
  simp only [exItems, Accepteds, Accepted, World.item, World.items, ctorCtx, List.not_mem_nil, if_false, false_or, and_true]
  refine ⟨?_, ?_, ?_, ?_, ?_, ?_⟩
  · refine ⟨?_, ?_, ?_, ?_, ?_, ?_, ?_, ?_, ?_⟩
    · simp [New, binderSyms, Ex.erase]
    · simp [iterateTy, Plain, Plains]
    · simp [iterateTy, WfTy, WfTys, arity, declOf]
    · intro b h; cases h; rfl
    · simp [PlainLets, Ex.erase]
    all_goals intro h; cases h
  · refine ⟨by simp [New, binderSyms, Ex.erase, exI], ?_⟩
    simp [Plain, Plains, WfTy, WfTys, arity, declOf, maxFields]
  · refine ⟨by simp [New, binderSyms, Ex.erase, exI], ?_⟩
    simp [Plain, Plains, WfTy, WfTys, arity, declOf, maxFields]
  · refine ⟨?_, ?_, ?_, ?_, ?_, fun _ => ?_, fun _ => ?_, fun _ => ?_, fun _ => ?_⟩
    · simp [New, binderSyms, casesBinderSyms, casesErase, Ex.erase, exI, exSumTyped]
    · simp [Plain, Plains]
    · simp [WfTy, WfTys, arity, declOf]
    · intro b h; cases h
    · simp [exSumTyped, PlainLets, PlainLetsCases, casesErase, Ex.erase, Plain, Plains]
    · exact ⟨exDefs, _, [], exSum, 20, exDefs_ok, (by intro s sch h; cases h), (by intro s sch h; cases h), exSum_scoped, exSum_run⟩
    · exact exSum_covered
    · exact exSum_noEscape
    · exact exSum_noNestedFold
  · refine ⟨?_, ?_, ?_, ?_, ?_, fun _ => ?_, fun _ => ?_, fun _ => ?_, fun _ => ?_⟩
    · simp [New, binderSyms, casesBinderSyms, casesErase, Ex.erase, exI, exSumTyped, sixTyped]
    · simp [Plain, Plains]
    · simp [WfTy]
    · intro b h; cases h
    · simp [sixTyped, PlainLets, Ex.erase]
    · refine ⟨exDefs2, [3, 4, 9], [(3, ⟨[2], ctorTy ⟨1, [2], []⟩⟩), (4, ⟨[2], ctorTy ⟨1, [2], [.ty (.named 2 []), .rec_]⟩⟩), (9, ⟨[], .fn (.named 1 [.int]) .int⟩)], sixSrc, 20, exDefs2_ok, ?_, ?_, ?_, by rfl⟩
      · intro s sch h
        simp only [Ctx.find] at h
        split at h
        · rename_i e; subst e; cases h; exact ⟨by simp, .inr ⟨_, _, rfl, rfl⟩⟩
        split at h
        · rename_i e; subst e; cases h; exact ⟨by simp, .inr ⟨_, _, rfl, rfl⟩⟩
        split at h
        · rename_i e; subst e; cases h; exact ⟨by simp, .inl ⟨rfl, by simp⟩⟩
        · cases h
      · intro s sch h
        simp only [Ctx.find] at h
        split at h
        · rename_i e; subst e; exact h
        split at h
        · rename_i e; subst e; exact h
        split at h
        · rename_i e; subst e; exact h
        · cases h
      · simp [sixSrc, Scoped]
    · exact covered_trivial (by simp [sixTyped, nodes])
    · simp [NoEscape, sixTyped, nodes, annots, tySyms, ownVars]
    · simp [NoNestedFold, sixTyped, nodes]
  · refine ⟨?_, ?_, ?_, ?_, ?_, fun _ => ?_, fun _ => ?_, fun _ => ?_, fun _ => ?_⟩
    · simp [New, binderSyms, casesBinderSyms, casesErase, Ex.erase, exI, exSumTyped, sixTyped, powerTyped]
    · simp [Plain, Plains]
    · simp [WfTy, WfTys, arity, declOf]
    · intro b h; cases h
    · simp [powerTyped, PlainLets, Ex.erase]
    · refine ⟨exDefs2, [8, 50, 62], [(8, ⟨[6], ctorTy ⟨5, [6], [.ty (.named 6 [])]⟩⟩), (50, ⟨[51], iterateTy⟩)], powerSrc, 20, exDefs2_ok, ?_, ?_, ?_, by rfl⟩
      · intro s sch h
        simp only [Ctx.find] at h
        split at h
        · rename_i e; subst e; cases h; exact ⟨by simp, .inr ⟨_, _, rfl, rfl⟩⟩
        split at h
        · rename_i e; subst e; cases h; exact ⟨by simp, .inl ⟨rfl, by simp [iterateTy]⟩⟩
        · cases h
      · intro s sch h
        simp only [Ctx.find] at h
        split at h
        · rename_i e; subst e; exact h
        split at h
        · rename_i e; subst e; exact h
        · cases h
      · simp [powerSrc, Scoped, exDefs2]
    · exact covered_trivial (by simp [powerTyped, nodes])
    · simp [NoEscape, powerTyped, nodes, annots, tySyms, ownVars]
    · simp [NoNestedFold, powerTyped, nodes]

/-- ... and has no holes, although the imported module has one for the built-in function. -/
example : (World.items exI {} exItems).texts = [] := by rfl

/-- What it exports. -/
example : (exportsOf exItems).map (·.1) = ["six", "power"] := by rfl

end Tic.Front
