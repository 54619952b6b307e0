import Verif.GenShape
import Verif.VerifyShape
import Verif.PropOptimize
import Verif.PropBytecode
import Verif.PropLambda
/-
`ticc/src/codegen.rs:27-34`, `emit_core`: code generation, verification and optimization together.
-/
namespace Tic.Front
open Tic.Unify (Symbol IrTy)
open Tic.Core

/-- The closure `verify` of `emit_core`, `codegen.rs:30`: `assert_valid` if verification is on, a panic
if it fails. -/
def verifyStep (on : Bool) (r : Prog) : Res Prog :=
  if on then (if (verify r.2.names r.1).isSome then .ok r else .panic) else .ok r

/-- The passes of `optimize_iteration`, each followed by `verify`, `opt.rs:57-61`. -/
def checkedPasses (on : Bool) (k : Nat) : List (Prog → Res Prog) :=
  (passes k).map fun f r => (f r).bind (verifyStep on)

/-- `optimize_iteration`, `opt.rs:38-61`: `verify`, then the passes. -/
def checkedIteration (on : Bool) (k : Nat) (r : Prog) : Res Prog := (verifyStep on r).bind (runPasses (checkedPasses on k))

/-- The loop of `optimize`, `opt.rs:20-27`: at most `n` more turns, `h` is `hash`. -/
def checkedLoop (hash : Prog → UInt64) (on : Bool) (k : Nat) : Nat → UInt64 → Prog → Res Prog
  | 0, _, r => .ok r
  | n + 1, h, r => (checkedIteration on k r).bind fun r' => if hash r' = h then .ok r' else checkedLoop hash on k n (hash r') r'

/-- `optimize`, `opt.rs:14-29`. -/
def checkedOptimize (hash : Prog → UInt64) (on : Bool) (k : Nat) (enabled : Bool) (r : Prog) : Res Prog :=
  if enabled then checkedLoop hash on k 10 (hash r) r else .ok r

/-- The program `generate_core` returns together with its generators, `gen_core.rs:9-28`; `none` where
code generation panics. -/
def generated (I : Symbol → Option Builtin) (items : List Item) : Option Prog :=
  (emitItems I true ([], {}) items).map fun r => (⟨r.2.types, r.2.defs⟩, ⟨r.2.names, r.2.tys⟩)

/-- The two options of `codegen.rs:8-11`. -/
structure Options where
  verify : Bool
  optimize : Bool

/-- `emit_core`, `codegen.rs:27-34`, after the front end has accepted `items`.  The inliner walks down
to depth `k`; `hash` is `hash_program`. -/
def emitCore (hash : Prog → UInt64) (k : Nat) (o : Options) (I : Symbol → Option Builtin) (items : List Item) : Res Prog :=
  match generated I items with
  | none => .panic
  | some r => (verifyStep o.verify r).bind (checkedOptimize hash o.verify k o.optimize)

/-! ### Verification between the passes -/

theorem passFine_verify (on : Bool) : PassFine fun _ => verifyStep on := fun r hr => by
  cases on with
  | false => exact ⟨0, .inl ⟨r, fun _ _ => rfl, .refl hr⟩⟩
  | true =>
    by_cases hv : (verify r.2.names r.1).isSome = true
    · exact ⟨0, .inl ⟨r, fun _ _ => by simp only [verifyStep, hv, if_true], .refl hr⟩⟩
    · exact ⟨0, .inr fun _ _ => by simp only [verifyStep, if_neg hv, if_true]⟩

theorem PassFine.bind {f g : Nat → Prog → Res Prog} (hf : PassFine f) (hg : PassFine g) : PassFine fun k r => (f k r).bind (g k) := fun r hr => by
  obtain ⟨K, ⟨r1, h1, h2⟩ | h1⟩ := hf r hr
  · obtain ⟨K2, ⟨r2, h3, h4⟩ | h3⟩ := hg r1 h2.fit
    · exact ⟨max K K2, .inl ⟨r2, fun k hk => by show (f k r).bind (g k) = _; rw [h1 k (by omega), Res.bind_ok]; exact h3 k (by omega), h2.trans h4⟩⟩
    · exact ⟨max K K2, .inr fun k hk => by show (f k r).bind (g k) = _; rw [h1 k (by omega), Res.bind_ok]; exact h3 k (by omega)⟩
  · exact ⟨K, .inr fun k hk => by show (f k r).bind (g k) = _; rw [h1 k hk]; rfl⟩
theorem passFine_checkedIteration (on : Bool) : PassFine (checkedIteration on) := by
  refine PassFine.bind (passFine_verify on) ?_
  have := passFine_run (fs := passFns.map fun f k r => (f k r).bind (verifyStep on)) (by
    intro f hf
    obtain ⟨f0, h0, rfl⟩ := List.mem_map.1 hf
    exact PassFine.bind (passFine_passes f0 h0) (passFine_verify on))
  have he : checkedPasses on = fun k => (passFns.map fun f k r => (f k r).bind (verifyStep on)).map fun f => f k := by
    funext k; simp only [checkedPasses, passes_eq, List.map_map]; rfl
  rw [he]; exact this

theorem checkedLoop_succ (hash : Prog → UInt64) (on : Bool) (k n : Nat) (h : UInt64) (r : Prog) : (fun k => checkedLoop hash on k (n + 1) h) k r =
    (checkedIteration on k r).bind fun r' => if hash r' = h then .ok r' else checkedLoop hash on k n (hash r') r' := rfl

theorem passFine_checkedLoop (hash : Prog → UInt64) (on : Bool) : ∀ (n : Nat) (h : UInt64), PassFine fun k => checkedLoop hash on k n h
  | 0, _, r, hr => ⟨0, .inl ⟨r, fun _ _ => rfl, .refl hr⟩⟩
  | n + 1, h, r, hr => by
    obtain ⟨K, ⟨r1, h1, h2⟩ | h1⟩ := passFine_checkedIteration on r hr
    · by_cases hh : hash r1 = h
      · exact ⟨K, .inl ⟨r1, fun k hk => by rw [checkedLoop_succ, h1 k hk, Res.bind_ok, if_pos hh], h2⟩⟩
      · obtain ⟨K2, ⟨r2, h3, h4⟩ | h3⟩ := passFine_checkedLoop hash on n (hash r1) r1 h2.fit
        · exact ⟨max K K2, .inl ⟨r2, fun k hk => by
            rw [checkedLoop_succ, h1 k (by omega), Res.bind_ok, if_neg hh]; exact h3 k (by omega), h2.trans h4⟩⟩
        · exact ⟨max K K2, .inr fun k hk => by
            rw [checkedLoop_succ, h1 k (by omega), Res.bind_ok, if_neg hh]; exact h3 k (by omega)⟩
    · exact ⟨K, .inr fun k hk => by rw [checkedLoop_succ, h1 k hk]; rfl⟩

theorem passFine_checkedOptimize (hash : Prog → UInt64) (on enabled : Bool) : PassFine fun k => checkedOptimize hash on k enabled := by
  cases enabled with
  | false => exact fun r hr => ⟨0, .inl ⟨r, fun _ _ => rfl, .refl hr⟩⟩
  | true => exact fun r hr => passFine_checkedLoop hash on 10 (hash r) r hr

/-! ### What is returned has been verified -/

/-- The verifier accepts the program. -/
def Verified (r : Prog) : Prop := (verify r.2.names r.1).isSome = true

theorem verifyStep_ok {r r' : Prog} (h : verifyStep true r = .ok r') : r' = r ∧ Verified r' := by
  simp only [verifyStep, if_true] at h
  split at h
  · cases h; rename_i hv; exact ⟨rfl, hv⟩
  · cases h

theorem runPasses_verified : ∀ {fs : List (Prog → Res Prog)}, (∀ f ∈ fs, ∀ r r', f r = .ok r' → Verified r') → ∀ {r r'}, Verified r → runPasses fs r = .ok r' → Verified r'
  | [], _, r, r', hr, h => by simp only [runPasses] at h; cases h; exact hr
  | f :: fs, hf, r, r', hr, h => by
    simp only [runPasses] at h
    cases h1 : f r with
    | ok r1 => rw [h1, Res.bind_ok] at h; exact runPasses_verified (fun f hm => hf f (by simp [hm])) (hf f (by simp) r r1 h1) h
    | _ => rw [h1] at h; cases h

theorem checkedIteration_verified {k : Nat} {r r' : Prog} (h : checkedIteration true k r = .ok r') : Verified r' := by
  simp only [checkedIteration] at h
  cases h1 : verifyStep true r with
  | ok r1 =>
    rw [h1, Res.bind_ok] at h
    refine runPasses_verified ?_ (verifyStep_ok h1).2 h
    intro f hf r r' hr
    obtain ⟨f0, -, rfl⟩ := List.mem_map.1 hf
    change (f0 r).bind _ = _ at hr
    cases h2 : f0 r with
    | ok r2 => rw [h2, Res.bind_ok] at hr; exact (verifyStep_ok hr).2
    | _ => rw [h2] at hr; cases hr
  | _ => rw [h1] at h; cases h

theorem checkedLoop_verified {hash : Prog → UInt64} {k : Nat} : ∀ {n : Nat} {h : UInt64} {r r' : Prog}, Verified r → checkedLoop hash true k n h r = .ok r' → Verified r'
  | 0, _, r, r', hr, h => by simp only [checkedLoop] at h; cases h; exact hr
  | n + 1, _, r, r', hr, h => by
    simp only [checkedLoop] at h
    cases h1 : checkedIteration true k r with
    | ok r1 =>
      rw [h1, Res.bind_ok] at h
      have hv := checkedIteration_verified h1
      split at h
      · cases h; exact hv
      · exact checkedLoop_verified hv h
    | _ => rw [h1] at h; cases h

/-- With verification on, whatever `emit_core` returns is accepted by the verifier. -/
theorem emitCore_verified {hash : Prog → UInt64} {k : Nat} {o : Options} {I : Symbol → Option Builtin} {items : List Item} {r : Prog} (ho : o.verify = true)
    (h : emitCore hash k o I items = .ok r) : Verified r := by
  unfold emitCore at h
  split at h
  · cases h
  · rename_i r0 _
    rw [ho] at h
    cases h1 : verifyStep true r0 with
    | ok r1 =>
      rw [h1, Res.bind_ok] at h
      unfold checkedOptimize at h
      split at h
      · exact checkedLoop_verified (verifyStep_ok h1).2 h
      · cases h; exact (verifyStep_ok h1).2
    | _ => rw [h1] at h; cases h

end Tic.Front
