import Verif.EmitCore
import Verif.PropMeaning
import Verif.PropVerified
import Verif.HeapVmEval
/-
C41: what the compiler puts out computes what the source program means, whichever options are on and
whichever evaluator runs it.
-/
namespace Tic.Front
open Tic.Unify (Symbol IrTy)
open Tic.Core
open Tic.Core.Bc (SmallCode BcProgram)

/-- The expressions that name the exports of a program: what the runners ask of it. -/
def exportNames (p : Program) : List Expr := (p.defs.filter fun d => d.exportName.isSome).map fun d => .name d.name

/-- The tree-walking evaluator gives the exports of the program the values `os`, and nothing else. -/
def TreewalkGives (p : Program) (os : List Obs) : Prop := ∃ N, ∀ n, N ≤ n → runExports n p = .ok os
/-- The same of the closure-compiling evaluator, whatever order hash sets are iterated in. -/
def LambdaGives (p : Program) (os : List Obs) : Prop :=
  ∀ ord : Expr → List Name → List Name, (∀ e l, (ord e l).Perm l) → ∃ N, ∀ n, N ≤ n → lseen (levalProgram ord n p (exportNames p)) = .ok os
/-- The same of the bytecode compiler and machine, if the code fits in the operands of its instructions:
on values as trees, and on the garbage-collected heap unless a limit of the heap is hit. -/
def MachineGives (p : Program) (os : List Obs) : Prop :=
  SmallCode p (exportNames p) → ∃ N, ∀ n, N ≤ n → bytecodeEval n p (exportNames p) = .ok os ∧
    (heapEval n p (exportNames p) = .limit ∨ heapEval n p (exportNames p) = .res (.ok os))

theorem obsList_eq_map : ∀ vs : List Val, obsList vs = vs.map Val.obs
  | [] => rfl
  | v :: vs => by rw [obsList, List.map_cons, obsList_eq_map vs]

theorem exportNames_list (p : Program) : exportNames p = (exportList p).map fun a => .name a.1 := by
  simp only [exportNames, exportList, List.map_map]; rfl

theorem exportNames_asks (p : Program) : AsksExports p (exportNames p) := by
  rw [asksExports_iff, exportNames_list]
  intro e he
  obtain ⟨a, h1, rfl⟩ := List.mem_map.1 he
  exact ⟨a, h1, rfl⟩

theorem runExports_ok {n : Nat} {p : Program} {os : List Obs} : runExports n p = .ok os ↔ seen (evalProgram n p (exportNames p)) = .ok os := by
  unfold runExports
  show (match evalProgram n p (exportNames p) with | .ok vs => Res.ok (vs.map Val.obs) | .trap m => .trap m | .panic => .panic | .timeout => .timeout) = _ ↔ _
  cases evalProgram n p (exportNames p) <;> simp [seen, Res.bind, obsList_eq_map]

theorem runExports_yields {p : Program} {os : List Obs} : Yields p (exportNames p) os ↔ TreewalkGives p os := by
  constructor
  · rintro ⟨n, vs, h1, h2⟩
    refine ⟨n, fun m hm => runExports_mono hm (runExports_ok.2 ?_) (by simp)⟩
    rw [h1, ← h2]; rfl
  · rintro ⟨n, h⟩
    have h := runExports_ok.1 (h n (Nat.le_refl _))
    cases hr : evalProgram n p (exportNames p) with
    | ok vs => rw [hr] at h; cases h; exact ⟨n, vs, hr, rfl⟩
    | _ => rw [hr] at h; cases h

theorem exportNames_good {p : Program} : ∀ e ∈ exportNames p, Core.Good (p.defs.map (·.name)) e ∧ BcShape e := by
  intro e he
  obtain ⟨d, hd, rfl⟩ := List.mem_map.1 he
  have hm : d.name ∈ p.defs.map (·.name) := List.mem_map.2 ⟨d, (List.mem_filter.1 hd).1, rfl⟩
  have hsub : ∀ e', SubE e' (.name d.name) → e' = .name d.name := by
    intro e' hs
    cases hs with
    | refl => rfl
    | step hc _ => simp [children] at hc
  refine ⟨⟨fun y => by simp [cnt, binders], fun y _ => by simp [cnt, binders], fun x hx => ?_, fun e' hs => ?_⟩, ⟨fun i xs hs => ?_, fun x ty v b ps e' hs => ?_⟩⟩
  · simp only [Free] at hx; rw [hx]; exact hm
  · rw [hsub e' hs]; trivial
  · cases hsub _ hs
  · cases hsub _ hs

/-- What all three evaluators do with a program that the verifier has accepted. -/
theorem gives_all {p : Program} {os : List Obs} (hw : WellNamed p) (hs : ∀ d ∈ p.defs, BcShape d.value) (h : TreewalkGives p os) :
    LambdaGives p os ∧ MachineGives p os := by
  obtain ⟨N, hN⟩ := h
  have hN' : ∀ n, N ≤ n → seen (evalProgram n p (exportNames p)) = .ok os := fun n hn => runExports_ok.1 (hN n hn)
  refine ⟨fun ord hord => ⟨N, fun n hn => ?_⟩, fun hsm => ?_⟩
  · rw [treewalk_lambda_agree ord hord p hw (fun d hd i xs hi => Nat.le_of_eq ((hs d hd).intr i xs hi).symm) (exportNames p)
      (fun e he => ⟨(exportNames_good e he).1, fun i xs hi => Nat.le_of_eq ((exportNames_good e he).2.intr i xs hi).symm⟩) n, hN' n hn]
    intro hp
    have := hN' n hn
    rw [hp] at this
    cases this
  · have := hN' N (Nat.le_refl _)
    cases hr : evalProgram N p (exportNames p) with
    | ok vs =>
      rw [hr] at this
      cases this
      obtain ⟨M, hM⟩ := bytecode_same_values ⟨hw, hs, exportNames_good, hsm⟩ hr
      refine ⟨M + 1, fun m hm => ?_⟩
      have e := hM m (by omega)
      have hh := heapEval_ok hsm m (by rw [e]; simp)
      rw [e] at hh
      exact ⟨e, hh⟩
    | _ => rw [hr] at this; cases this

/-- What one may ask of a program `p` that comes out of the compiler, if the source means `o`. -/
structure Correct (R : Symbol → Option Name) (items : List Item) (o : Out SEnv) (p : Program) : Prop where
  /-- it exports what the source exports, in that order -/
  exports : p.defs.filterMap (·.exportName) = (exportsOf items).map (·.1)
  /-- if the source gives its exports values, so does the program, the same ones -/
  values : ∀ σ, o = .ok σ → ∃ os, ShowsAll R σ (exportsOf items) os ∧ TreewalkGives p os

/-- Whichever evaluator runs the program, the exports get the values the source gives them, if it does. -/
def RunsEverywhere (R : Symbol → Option Name) (items : List Item) (o : Out SEnv) (p : Program) : Prop :=
  ∀ σ, o = .ok σ → ∃ os, ShowsAll R σ (exportsOf items) os ∧ TreewalkGives p os ∧ LambdaGives p os ∧ MachineGives p os

theorem exportNames_filterMap (p : Program) : p.defs.filterMap (·.exportName) = (exportList p).filterMap (·.2) := by
  unfold exportList
  induction p.defs with
  | nil => rfl
  | cons d ds ih => cases hd : d.exportName <;> simp [hd, ih]

theorem generated_of {I : Symbol → Option Builtin} {items : List Item} {p : Program} {L : Nat} (h1 : generateCore I items = some p) (h2 : idLimit I items = some L) :
    ∃ G : Gens, generated I items = some (p, G) ∧ G.names = L := by
  simp only [generateCore, Option.map_eq_some_iff] at h1
  obtain ⟨r, h3, rfl⟩ := h1
  simp only [idLimit, h3, Option.map_some, Option.some.injEq] at h2
  exact ⟨⟨r.2.names, r.2.tys⟩, by simp only [generated, h3, Option.map_some], h2⟩

/-- **C41.**  Let the front end accept every item of a program.  The program means exactly one thing,
`o`, and, for all options and all ways of hashing, `emit_core` either returns a program that computes
that, with the exports of the source, and that every evaluator runs to the same values if
verification is on; or, only if the optimizer is on, it panics.  Without the optimizer it always
returns a program, and that one also traps where and how the source does. -/
theorem emitted_program_means {I : Symbol → Option Builtin} {items : List Item} (h : Accepteds I {} items) (hf : Formeds I items) :
    ∃ o R, Means I items o ∧ (∀ o', Means I items o' → o' = o) ∧ (∀ c c' n, R c = some n → R c' = some n → c = c') ∧
      ∀ (hash : Prog → UInt64) (opts : Options), ∃ K,
        (∃ r, (∀ k, K ≤ k → emitCore hash k opts I items = .ok r) ∧ Correct R items o r.1 ∧
          (opts.verify = true → RunsEverywhere R items o r.1) ∧
          (opts.optimize = false → RunsEverywhere R items o r.1 ∧ ∃ N, ∀ n, N ≤ n → Does R (exportsOf items) o (runExports n r.1))) ∨
        (opts.optimize = true ∧ ∀ k, K ≤ k → emitCore hash k opts I items = .panic) := by
  obtain ⟨o, p, R, N, m1, m2, m3, m4, m5, m6⟩ := accepted_program_means h
  obtain ⟨p', L, v1, v2, v3⟩ := accepted_program_verifies h hf
  obtain rfl : p = p' := by rw [v1] at m3; cases m3; rfl
  obtain ⟨G, g1, rfl⟩ := generated_of v1 v2
  obtain ⟨st, v3⟩ := Option.isSome_iff_exists.mp v3
  have hsh := accepted_program_shaped h m3
  obtain ⟨w1, w2⟩ := verify_wellNamed v3 fun d hd => (hsh d hd).wellShaped
  have hfit : Fit (p, G) := ⟨w1, w2⟩
  have hbc := verify_bcShape v3
  -- what the generated program does
  have hgen : ∀ σ, o = .ok σ → ∃ os, ShowsAll R σ (exportsOf items) os ∧ TreewalkGives p os := by
    rintro σ rfl
    have hd := m6 N (Nat.le_refl _)
    cases hr : runExports N p with
    | ok os =>
      rw [hr] at hd
      exact ⟨os, hd, N, fun n hn => runExports_mono hn hr (by simp)⟩
    | _ => rw [hr] at hd; exact hd.elim
  have hvs : ∀ on, verifyStep on (p, G) = .ok (p, G) := by
    intro on
    cases on <;> simp [verifyStep, v3]
  refine ⟨o, R, m1, m2, m5, fun hash opts => ?_⟩
  have hem : ∀ k, emitCore hash k opts I items = checkedOptimize hash opts.verify k opts.optimize (p, G) := by
    intro k
    simp only [emitCore, g1, hvs, Res.bind_ok]
  obtain ⟨K, ⟨r, h1, h2⟩ | h1⟩ := passFine_checkedOptimize hash opts.verify opts.optimize (p, G) hfit
  · have hval : ∀ σ, o = .ok σ → ∃ os, ShowsAll R σ (exportsOf items) os ∧ TreewalkGives r.1 os := by
      intro σ ho
      obtain ⟨os, s1, s2⟩ := hgen σ ho
      refine ⟨os, s1, runExports_yields.1 ?_⟩
      have := (h2.values _ (exportNames_asks p)).keeps os (runExports_yields.2 s2)
      rwa [exportNames_list, ← h2.exports, ← exportNames_list] at this
    refine ⟨K, .inl ⟨r, fun k hk => by rw [hem]; exact h1 k hk, ?_, ?_, ?_⟩⟩
    · exact ⟨by rw [exportNames_filterMap, h2.exports, ← exportNames_filterMap]; exact m4, hval⟩
    · intro ho σ hσ
      obtain ⟨os, s1, s2⟩ := hval σ hσ
      have hv : Verified r := emitCore_verified ho (by rw [hem]; exact h1 K (Nat.le_refl _) : emitCore hash K opts I items = .ok r)
      obtain ⟨st', hv⟩ := Option.isSome_iff_exists.mp hv
      exact ⟨os, s1, s2, gives_all h2.fit.named (verify_bcShape hv) s2⟩
    · intro ho
      have h3 := h1 K (Nat.le_refl _)
      simp only [ho, checkedOptimize] at h3
      cases h3
      refine ⟨fun σ hσ => ?_, N, m6⟩
      obtain ⟨os, s1, s2⟩ := hgen σ hσ
      exact ⟨os, s1, s2, gives_all w1 hbc s2⟩
  · refine ⟨K, ?_⟩
    cases ho : opts.optimize with
    | true => exact .inr ⟨rfl, fun k hk => by rw [hem]; exact h1 k hk⟩
    | false =>
      have := h1 K (Nat.le_refl _)
      simp [ho, checkedOptimize] at this

end Tic.Front
