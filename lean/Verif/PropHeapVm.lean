import Verif.HeapVmFits
/-
C42: the bytecode evaluator with its garbage-collected heap computes what the program means.
-/
namespace Tic.Core
open Tic.Heap Tic.Core.Bc

/-- **C42, values.** If the tree-walking evaluator computes values, the bytecode evaluator, running on its
heap with collections whenever they happen, computes the same ones after some number of rounds, unless it
stops at a limit of the heap. -/
theorem heap_same_values {p : Program} {es : List Expr} (h : BcProgram p es) {n : Nat} {vs : List Val}
    (hv : evalProgram n p es = .ok vs) :
    ∃ N, ∀ m, N < m → heapEval m p es = .limit ∨ heapEval m p es = .res (.ok (obsList vs)) := by
  obtain ⟨N, hN⟩ := bytecode_same_values h hv
  refine ⟨N, fun m hm => ?_⟩
  have e := hN m hm
  rw [← e]
  exact heapEval_ok h.small m (by rw [e]; simp)

/-- **C42, no other results.** If the tree-walking evaluator computes values, the bytecode evaluator on its
heap computes those, or is still running, or stops at a limit of the heap; it computes nothing else, does
not trap and does not panic. -/
theorem heap_only_values {p : Program} {es : List Expr} (h : BcProgram p es) {n m : Nat} {vs : List Val}
    (hv : evalProgram n p es = .ok vs) :
    heapEval m p es = .limit ∨ heapEval m p es = .res .timeout ∨ heapEval m p es = .res (.ok (obsList vs)) := by
  by_cases ht : bytecodeEval m p es = .timeout
  · rcases heapEval_ok h.small m (by rw [ht]; simp) with h1 | h1
    · exact .inl h1
    · exact .inr (.inl (by rw [h1, ht]))
  · have e := bytecode_only_values h hv ht
    rcases heapEval_ok h.small m (by rw [e]; simp) with h1 | h1
    · exact .inl h1
    · exact .inr (.inr (by rw [h1, e]))

/-- The machine on trees does not panic on a program in which nothing can go wrong. -/
theorem bytecode_no_panic {p : Program} {es : List Expr} (h : BcProgram p es) (hp : ∀ n, evalProgramA n p es ≠ .panic) (m : Nat) :
    bytecodeEval m p es ≠ .panic := by
  obtain ⟨h1, h2, h3⟩ := bytecode_argsFirst h
  by_cases hall : ∀ n, evalProgramA n p es = .timeout
  · rw [h3 hall m]; simp
  · obtain ⟨n, hn⟩ := Classical.not_forall.1 hall
    cases hr : evalProgramA n p es with
    | ok vs =>
      obtain ⟨N, hN⟩ := h1 n vs hr
      by_cases hm : m ≤ N
      · rw [(hN m).1 hm]; simp
      · rw [(hN m).2 (by omega)]; simp
    | trap msg =>
      obtain ⟨N, hN⟩ := h2 n msg hr
      by_cases hm : m ≤ N
      · rw [(hN m).1 hm]; simp
      · rw [(hN m).2 (by omega)]; simp
    | panic => exact absurd hr (hp n)
    | timeout => exact absurd hr hn

/-- **C42, whatever is computed is right.** In a program in which nothing can go wrong, every value the
bytecode evaluator prints is the one the tree-walking evaluator prints; and it never panics: not on a
dangling pointer, an object read as something else, or memory reused too early. -/
theorem heap_values_right {p : Program} {es : List Expr} (h : BcProgram p es) (hp : ∀ n, evalProgramA n p es ≠ .panic) (m : Nat) :
    (∀ os, heapEval m p es = .res (.ok os) → ∃ n, seen (evalProgram n p es) = .ok os) ∧ heapEval m p es ≠ .res .panic := by
  have hn := bytecode_no_panic h hp m
  rcases heapEval_ok h.small m hn with h1 | h1
  · rw [h1]
    exact ⟨fun os e => (nomatch e), by simp⟩
  · rw [h1]
    refine ⟨fun os e => ?_, fun e => ?_⟩
    · simp only [HOut.res.injEq] at e
      exact (bytecode_values_iff h hp os).1 ⟨m, e⟩
    · simp only [HOut.res.injEq] at e
      exact hn e

/-- **C42, traps.** Where the tree-walking evaluator traps, the bytecode evaluator returns no value: it
traps, runs on, or stops at a limit of the heap. -/
theorem heap_traps {p : Program} {es : List Expr} (h : BcProgram p es) (hp : ∀ n, evalProgramA n p es ≠ .panic)
    {n : Nat} {msg : String} (ht : evalProgram n p es = .trap msg) (m : Nat) :
    heapEval m p es = .limit ∨ heapEval m p es = .res .timeout ∨ ∃ msg', heapEval m p es = .res (.trap msg') := by
  have hn := bytecode_no_panic h hp m
  rcases heapEval_ok h.small m hn with h1 | h1
  · exact .inl h1
  · refine .inr ?_
    rw [h1]
    rcases bytecode_traps h hp ht with ⟨msg', N, hN⟩ | hall
    · by_cases hto : bytecodeEval m p es = .timeout
      · exact .inl (by rw [hto])
      · refine .inr ⟨msg', ?_⟩
        rw [← bytecodeEval_stable hto (Nat.le_max_left m (N + 1)), hN _ (by omega)]
    · exact .inl (by rw [hall m])

/-- **C42, within the limits.** A program whose constants, objects, strings and data fit (`Fits`) never
stops at a limit: the bytecode evaluator on its heap computes the values of the tree-walking evaluator. -/
theorem heap_fits_values {p : Program} {es : List Expr} (h : BcProgram p es) {n : Nat} {vs : List Val}
    (hv : evalProgram n p es = .ok vs)
    (hf : ∀ m ops lops st, compileProgram p es = some ops → link ops = some (lops, st) → Fits m lops st.consts) :
    ∃ N, ∀ m, N < m → heapEval m p es = .res (.ok (obsList vs)) := by
  obtain ⟨N, hN⟩ := bytecode_same_values h hv
  refine ⟨N, fun m hm => ?_⟩
  have e := hN m hm
  rw [← e]
  exact heapEval_fits h.small m (by rw [e]; simp) (hf m)

/-! ### Checking `Fits` -/

/-- decides `SmallStrings` -/
def smallStringsB (ops : List LOp) (s : VM) : Bool :=
  match ops[s.ip]? with
  | some (.intr i) => match vmIntr i s.stack with
    | some (.str bs :: _) => decide (bs.length ≤ 104)
    | _ => true
  | _ => true

/-- checks the states of a run -/
def fitsB (ops : List LOp) (consts : List (List UInt8)) : Nat → VM → Bool
  | n, s => smallStringsB ops s && decide (treeBytesL s.stack + treeBytesL (consts.map .str) + 48 < 2 ^ 32) &&
    match n with
    | 0 => true
    | n + 1 => match vmStep ops consts s with
      | .next s => fitsB ops consts n s
      | _ => true

theorem smallStringsB_ok {ops : List LOp} {s : VM} (h : smallStringsB ops s = true) : SmallStrings ops s := by
  intro i bs st h1 h2
  rw [smallStringsB, h1] at h
  simp only [h2] at h
  simpa using h

theorem fitsB_ok {ops : List LOp} {consts : List (List UInt8)} : ∀ {n : Nat} {s : VM}, fitsB ops consts n s = true → ∀ k s', k ≤ n →
    vmAfter ops consts k s = some s' → SmallStrings ops s' ∧ treeBytesL s'.stack + treeBytesL (consts.map .str) + 48 < 2 ^ 32
  | n, s, h, 0, s', _, e => by
    simp only [vmAfter, Option.some.injEq] at e
    subst e
    rw [fitsB.eq_def] at h
    simp only [Bool.and_eq_true, decide_eq_true_eq] at h
    exact ⟨smallStringsB_ok h.1.1, h.1.2⟩
  | 0, s, h, k + 1, s', hk, e => by omega
  | n + 1, s, h, k + 1, s', hk, e => by
    rw [fitsB.eq_def] at h
    simp only [Bool.and_eq_true] at h
    rw [vmAfter] at e
    cases hv : vmStep ops consts s with
    | next s1 =>
      rw [hv] at h e
      exact fitsB_ok h.2 k s' (by omega) e
    | exit st => rw [hv] at e; cases e
    | trap m => rw [hv] at e; cases e
    | stuck => rw [hv] at e; cases e

theorem vmAfter_none {ops : List LOp} {consts : List (List UInt8)} : ∀ {n k : Nat} {s : VM}, vmAfter ops consts n s = none → n ≤ k →
    vmAfter ops consts k s = none
  | 0, k, s, h, _ => by simp [vmAfter] at h
  | n + 1, 0, s, h, hk => by omega
  | n + 1, k + 1, s, h, hk => by
    rw [vmAfter] at h ⊢
    cases hv : vmStep ops consts s with
    | next s1 => rw [hv] at h; exact vmAfter_none h (by omega)
    | exit st => rfl
    | trap m => rfl
    | stuck => rfl

/-- Checks that a program fits for the `n` rounds in which it ends. -/
def fitsProgB (n : Nat) (p : Program) (es : List Expr) : Bool :=
  match compileProgram p es with
  | none => false
  | some ops => match link ops with
    | none => false
    | some (lops, st) =>
      decide ((st.consts.map fun s => s.length + 32).sum + 512 < 2 ^ 32) &&
      lops.all (fun o => match o with | .construct _ k => decide (k ≤ 13) | _ => true) &&
      fitsB lops st.consts n ⟨0, []⟩ && (vmAfter lops st.consts n ⟨0, []⟩).isNone

theorem fitsProgB_ok {n : Nat} {p : Program} {es : List Expr} (h : fitsProgB n p es = true) (m : Nat) (ops : List BOp) (lops : List LOp)
    (st : LinkSt) (e1 : compileProgram p es = some ops) (e2 : link ops = some (lops, st)) : Fits m lops st.consts := by
  rw [fitsProgB, e1] at h
  simp only [e2, Bool.and_eq_true, decide_eq_true_eq, List.all_eq_true, Option.isNone_iff_eq_none] at h
  obtain ⟨⟨⟨h1, h2⟩, h3⟩, h4⟩ := h
  refine ⟨h1, fun tag k hm => ?_, fun k s hk e => ?_⟩
  · have := h2 _ hm
    simpa using this
  · by_cases hkn : k ≤ n
    · exact fitsB_ok h3 k s hkn e
    · rw [vmAfter_none h4 (by omega)] at e
      cases e

/-! ### Non-vacuity -/

/-- `letrec f = \\n. if n == 0 then Nil else Cons n (int_to_string n) (f (n - 1)) in f 6` -/
def exCells : Expr := .letrec 0 .int (.lam [(1, .int)] (.ite (.op (.name 1) .equal (.int 0)) (.con 8 [] [])
    (.con 7 [] [.name 1, .intr .intToString [.name 1], .call (.name 0) [.op (.name 1) .subtract (.int 1)]])))
  (.call (.name 0) [.int 6])

theorem exCells_bc : BcProgram ⟨[], []⟩ [exCells] where
  named := wnB_ok (by decide)
  shape := fun d h => nomatch h
  exprs := fun e he => by
    rw [List.mem_singleton.1 he]
    refine ⟨?_, bcShapeB_ok (by decide +kernel)⟩
    have : WellNamed ⟨[], [⟨99, none, .int, exCells⟩]⟩ := wnB_ok (by decide +kernel)
    have h := wellNamed_iff.1 this
    simp only [defPairs, List.map_cons, lets] at h
    exact (good_let.1 h).1
  small := by
    intro ops h
    have h0 : (compileProgram ⟨[], []⟩ [exCells]).map (fun ops => decide (ops.length < 2 ^ 48 ∧
        (∀ ls ∈ link ops, ls.2.ctors.length ≤ 2 ^ 48))) = some true := by decide +kernel
    rw [h, Option.map_some, Option.some.injEq, decide_eq_true_eq] at h0
    exact ⟨h0.1, fun lops st hl => h0.2 _ hl⟩

/-- capacity and free space of the heap at the end of a run -/
def heapAtEnd (n : Nat) (p : Program) (es : List Expr) : Option (Nat × Nat) :=
  match compileProgram p es with
  | none => none
  | some ops => match link ops with
    | none => none
    | some (lops, st) => match Runtime.start st.consts with
      | none => none
      | some rt => match hvRun lops n ⟨0, [], rt⟩ with
        | .res (.ok s) => some (s.rt.heap.len, s.rt.heap.bump)
        | _ => none

/-- The list fits ... -/
theorem exCells_fits : fitsProgB 200 ⟨[], []⟩ [exCells] = true := by decide +kernel

/-- ... and its run collects several times: the heap, of 256 bytes at first, has grown. -/
theorem exCells_collects : (heapAtEnd 200 ⟨[], []⟩ [exCells]).map (fun x => decide (1000 < x.1)) = some true := by decide +kernel

example : ∃ vs, evalProgram 40 ⟨[], []⟩ [exCells] = .ok vs ∧ ∃ N, ∀ m, N < m → heapEval m ⟨[], []⟩ [exCells] = .res (.ok (obsList vs)) := by
  have hv : (match evalProgram 40 ⟨[], []⟩ [exCells] with | .ok _ => true | _ => false) = true := by decide +kernel
  cases hr : evalProgram 40 ⟨[], []⟩ [exCells] with
  | ok vs => exact ⟨vs, rfl, heap_fits_values exCells_bc hr (fitsProgB_ok exCells_fits)⟩
  | trap msg => rw [hr] at hv; cases hv
  | panic => rw [hr] at hv; cases hv
  | timeout => rw [hr] at hv; cases hv

/-! ### The limits are reached early -/

/-- `string_concat "aa..a" "aa..a"`, with two strings of 200 bytes -/
def exConcat : Expr := .intr .stringConcat [.str (List.replicate 200 97), .str (List.replicate 200 97)]

theorem exConcat_bc : BcProgram ⟨[], []⟩ [exConcat] where
  named := wnB_ok (by decide)
  shape := fun d h => nomatch h
  exprs := fun e he => by
    rw [List.mem_singleton.1 he]
    refine ⟨?_, bcShapeB_ok (by decide +kernel)⟩
    have : WellNamed ⟨[], [⟨99, none, .int, exConcat⟩]⟩ := wnB_ok (by decide +kernel)
    have h := wellNamed_iff.1 this
    simp only [defPairs, List.map_cons, lets] at h
    exact (good_let.1 h).1
  small := by
    intro ops h
    have h0 : (compileProgram ⟨[], []⟩ [exConcat]).map (fun ops => decide (ops.length < 2 ^ 48 ∧
        (∀ ls ∈ link ops, ls.2.ctors.length ≤ 2 ^ 48))) = some true := by decide +kernel
    rw [h, Option.map_some, Option.some.injEq, decide_eq_true_eq] at h0
    exact ⟨h0.1, fun lops st hl => h0.2 _ hl⟩

/-- **Finding.** The bound on strings is essential: the tree-walking evaluator concatenates two strings of
200 bytes, the bytecode evaluator panics for lack of space (`heap.rs:48-50`), since it makes room after an
allocation and not for one (`bytecode.rs:318-340`). -/
theorem concat_fails : BcProgram ⟨[], []⟩ [exConcat] ∧
    seen (evalProgram 3 ⟨[], []⟩ [exConcat]) = .ok [.str (List.replicate 400 97)] ∧ heapEval 4 ⟨[], []⟩ [exConcat] = .limit := by
  refine ⟨exConcat_bc, ?_, ?_⟩
  · have : (match seen (evalProgram 3 ⟨[], []⟩ [exConcat]) with
        | .ok [.str s] => decide (s = List.replicate 400 97) | _ => false) = true := by decide +kernel
    split at this
    · rename_i s e
      simp only [decide_eq_true_eq] at this
      rw [e, this]
    · cases this
  have : (match heapEval 4 ⟨[], []⟩ [exConcat] with | .limit => true | _ => false) = true := by decide +kernel
  cases hr : heapEval 4 ⟨[], []⟩ [exConcat] with
  | limit => rfl
  | res r => rw [hr] at this; cases this

end Tic.Core
