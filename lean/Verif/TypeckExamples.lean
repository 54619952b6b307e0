import Verif.TypeckEscape
/-
C37: a program that meets the hypotheses, and programs that show why the conditions are needed.
-/
namespace Tic.Front
open Tic.Unify

/-! ### `type List a = Nil | Cons a rec` and a polymorphic local definition in a fold -/

/-- `type List a = Nil | Cons a rec` (symbols: `List` 1, `a` 2, `Nil` 3, `Cons` 4) and
`type Option a = None | Some a` (`Option` 5, `a` 6, `None` 7, `Some` 8). -/
def exDecls : List TypeDecl :=
  [⟨1, [2], [(3, []), (4, [.ty (.named 2 []), .rec_])]⟩, ⟨5, [6], [(7, []), (8, [.ty (.named 6 [])])]⟩]

/-- The definitions: constructors, the local `id : b -> b` (symbols 10, 20), and the names 11 to 14
of unknown types. -/
def exDefs : Symbol → Option DefKind
  | 3 => some (.ctor ⟨1, [2], []⟩ (ctorTy ⟨1, [2], []⟩))
  | 4 => some (.ctor ⟨1, [2], [.ty (.named 2 []), .rec_]⟩ (ctorTy ⟨1, [2], [.ty (.named 2 []), .rec_]⟩))
  | 7 => some (.ctor ⟨5, [6], []⟩ (ctorTy ⟨5, [6], []⟩))
  | 8 => some (.ctor ⟨5, [6], [.ty (.named 6 [])]⟩ (ctorTy ⟨5, [6], [.ty (.named 6 [])]⟩))
  | 10 => some (.value ⟨[20], .fn (.named 20 []) (.named 20 [])⟩)
  | 11 => some (.value ⟨[], .infer⟩)
  | 12 => some (.value ⟨[], .infer⟩)
  | 13 => some (.value ⟨[], .infer⟩)
  | 14 => some (.value ⟨[], .infer⟩)
  | _ => none

/-- `sum : List int -> int = let id : b -> b = \z -> z; \fold x -> match x with Nil -> id 0 | Cons h t -> h + t end`. -/
def exSum : Ex Unit :=
  .let_ 10 [20] (some (.fn (.named 20 []) (.named 20 []))) () (.lambda false 11 () () (.name 11 []))
    (.lambda true 12 () () (.match_ (.name 12 []) () [
      .mk 3 [] (.apply (.name 10 []) (.number 0)),
      .mk 4 [(13, ()), (14, ())] (.binary .add (.name 13 []) (.name 14 []))]))

/-- The annotated expression. -/
def exSumTyped : Ex IrTy :=
  .let_ 10 [20] (some (.fn (.named 20 []) (.named 20 []))) (.fn (.named 20 []) (.named 20 []))
    (.lambda false 11 (.named 20 []) (.fn (.named 20 []) (.named 20 [])) (.name 11 []))
    (.lambda true 12 (.folded (.named 1 [.int]) .int) (.fn (.named 1 [.int]) .int)
      (.match_ (.name 12 []) (.folded (.named 1 [.int]) .int) [
        .mk 3 [] (.apply (.name 10 [.int]) (.number 0)),
        .mk 4 [(13, .int), (14, .int)] (.binary .add (.name 13 []) (.name 14 []))]))

theorem exSum_run : typeCheck 20 exDefs [3, 4, 10, 11, 12, 13, 14] (.fn (.named 1 [.int]) .int) exSum = some ⟨[], exSumTyped⟩ := by rfl

theorem exDefs_ok : DefsOK exDecls exDefs := by
  constructor
  · intro s sch h hn
    unfold exDefs at h
    split at h <;> cases h
    · exact ⟨by simp [declOf, exDecls], [20], by simp [WfTy, WfTys, arity, declOf, exDecls]⟩
    all_goals exact absurd rfl hn
  · intro c d f h
    unfold exDefs at h
    split at h <;> cases h
    · exact ⟨rfl, _, rfl, rfl, by simp, by simp [declOf, exDecls], by simp⟩
    · exact ⟨rfl, _, rfl, rfl, by simp, by simp [declOf, exDecls], by simp [WfTy, WfTys, arity, declOf, exDecls]⟩
    · exact ⟨rfl, _, rfl, rfl, by simp, by simp [declOf, exDecls], by simp⟩
    · exact ⟨rfl, _, rfl, rfl, by simp, by simp [declOf, exDecls], by simp [WfTy, WfTys, arity, declOf, exDecls]⟩

theorem exSum_scoped : Scoped exDecls exDefs [3, 4, 10, 11, 12, 13, 14] [] [] exSum := by
  simp [exSum, Scoped, ScopedCases, exDefs, declOf, exDecls, WfTy, WfTys, arity]

theorem exSum_noEscape : NoEscape exDecls [] exSumTyped := by
  simp [NoEscape, exSumTyped, nodes, caseNodes, annots, ownVars, tySyms, tysSyms, declOf, exDecls]

theorem exSum_noNestedFold : NoNestedFold exSumTyped := by
  simp [NoNestedFold, exSumTyped, nodes, caseNodes]
  rintro _ _ _ _ a b - rfl - - ⟨⟩
  rfl

theorem exSum_covered : Covered exDecls exSumTyped := by
  intro p hp d dty cases he
  simp only [exSumTyped, nodes, caseNodes, List.cons_append, List.nil_append, List.append_nil, List.mem_cons, List.not_mem_nil, or_false] at hp
  rcases hp with rfl | rfl | rfl | rfl | rfl | rfl | rfl | rfl | rfl | rfl | rfl | rfl <;> cases he
  rfl

/-- All hypotheses of `typecheck_sound` hold for the example. -/
example : DefsOK exDecls exDefs ∧ Globals exDefs [3, 4, 10, 11, 12, 13, 14] [] ∧ WfTy exDecls [] (.fn (.named 1 [.int]) .int) ∧
    Scoped exDecls exDefs [3, 4, 10, 11, 12, 13, 14] [] [] exSum ∧ NoEscape exDecls [] exSumTyped ∧ NoNestedFold exSumTyped ∧
    Covered exDecls exSumTyped :=
  ⟨exDefs_ok, (by intro s sch h; cases h), by simp [WfTy, WfTys, arity, declOf, exDecls], exSum_scoped, exSum_noEscape, exSum_noNestedFold, exSum_covered⟩

/-- So the checker's annotations are a typing. -/
example : HasTy exDecls [] [] (exSumTyped.map fill) (.fn (.named 1 [.int]) .int) :=
  (typecheck_sound (Γ := []) (sch := ⟨[], .fn (.named 1 [.int]) .int⟩) exDefs_ok (by intro s sch h; cases h) (by simp [WfTy, WfTys, arity, declOf, exDecls]) exSum_scoped exSum_run rfl).2
    exSum_noEscape exSum_noNestedFold exSum_covered

/-! ### What the checker rejects -/

/-- `id 0 + true` style mistakes are reported: `sum` with `true` instead of `0`. -/
example : (typeCheck 20 exDefs [3, 4, 10, 11, 12, 13, 14] (.fn (.named 1 [.int]) .int)
    (.lambda true 12 () () (.match_ (.name 12 []) () [.mk 3 [] (.bool true),
      .mk 4 [(13, ()), (14, ())] (.binary .add (.name 13 []) (.name 14 []))]))).map (fun r => r.diags.length) = some 1 := by rfl

/-! ### Finding: items without a declared type -/

/-- What is recorded as the type of a name of unknown type, `typeck.rs:69-75`. -/
def recordedTy (n : Nat) (D : Symbol → Option DefKind) (refs : List Symbol) (ty : IrTy) (e : Ex Unit) (s : Symbol) : Option IrTy :=
  let p := addRefs D refs
  let x := p.2.inst [] ty
  (check n p.1 e x.2 x.1).bind fun r => match p.1.names s with
    | some (.infer i) => (toIr n r.1.u i).join
    | _ => none

/-- `let x = true;` at the top level is accepted, and the type of `x` stays unknown ... -/
theorem unannotated_item_stays_unknown :
    (typeCheck 20 exDefs [11] .infer (.bool true)).map (·.diags.length) = some 0 ∧
    recordedTy 20 exDefs [11] .infer (.bool true) 11 = some .infer := by
  exact ⟨by rfl, by rfl⟩

/-- ... so that another item may use it as a number: `let y : int = x + 1;` is accepted too. -/
theorem unannotated_item_has_any_type :
    (typeCheck 20 exDefs [11] .int (.binary .add (.name 11 []) (.number 1))).map (·.diags.length) = some 0 := by rfl

/-! ### Finding: type variables escape -/

/-- The definitions of the next program: `f` 30, `x` 31, `h` 32, `g : b -> b` 33 with `b` 40, `z` 34, `u` 35, `v` 36, `q` 37,
`h0` 41, `h1` 42 and their parameters 43, 44. -/
def escDefs : Symbol → Option DefKind
  | 7 => some (.ctor ⟨5, [6], []⟩ (ctorTy ⟨5, [6], []⟩))
  | 8 => some (.ctor ⟨5, [6], [.ty (.named 6 [])]⟩ (ctorTy ⟨5, [6], [.ty (.named 6 [])]⟩))
  | 33 => some (.value ⟨[40], .fn (.named 40 []) (.named 40 [])⟩)
  | _ => some (.value ⟨[], .infer⟩)

/-- The symbols of the program. -/
def escRefs : List Symbol := [7, 8, 30, 31, 32, 33, 34, 35, 36, 37, 41, 42, 43, 44]

/-- `let f = \x -> \h -> let g : b -> b = \z -> match x with None -> (let u = h z; z) | Some v -> v end;
let q = g 5; if g true then 1 else 2;  let h0 = \a -> 0;  let h1 = \c -> f (Some c) h0;  f None h1`. -/
def escProg : Ex Unit :=
  .let_ 30 [] none ()
    (.lambda false 31 () () (.lambda false 32 () ()
      (.let_ 33 [40] (some (.fn (.named 40 []) (.named 40 []))) ()
        (.lambda false 34 () () (.match_ (.name 31 []) () [
          .mk 7 [] (.let_ 35 [] none () (.apply (.name 32 []) (.name 34 [])) (.name 34 [])),
          .mk 8 [(36, ())] (.name 36 [])]))
        (.let_ 37 [] none () (.apply (.name 33 []) (.number 5)) (.ite (.apply (.name 33 []) (.bool true)) (.number 1) (.number 2))))))
    (.let_ 41 [] none () (.lambda false 43 () () (.number 0))
      (.let_ 42 [] none () (.lambda false 44 () () (.apply (.apply (.name 30 []) (.apply (.name 8 []) (.name 44 []))) (.name 41 [])))
        (.apply (.apply (.name 30 []) (.name 7 [])) (.name 42 []))))

/-- The program is accepted at type `int` without a diagnostic, although the type variable `b` of the
local definition `g` escapes into the type of `f`'s parameter (it is `Option b`). -/
theorem escaping_variable_is_accepted :
    ∃ r, typeCheck 30 escDefs escRefs .int escProg = some r ∧ r.diags = [] ∧
      ∃ ty body rest, r.expr = .let_ 30 [] none ty (.lambda false 31 (.named 5 [.named 40 []]) ty body) rest := by
  exact ⟨_, rfl, rfl, _, _, _, rfl⟩

end Tic.Front
