import Verif.Saturate
import Verif.MoveMatch
import Verif.InlineSimple
import Verif.Reduce
import Verif.Dce
/-
`ticc/src/codegen/opt.rs:14-60`: the order of the passes and the loop around them.
-/
namespace Tic.Core

/-- A program with its generators: the whole `ir::Program`. -/
abbrev Prog := Program × Gens

/-- A pass that may panic. -/
def orPanic : Option Prog → Res Prog
  | some r => .ok r
  | none => .panic

/-- A pass that is cut off at a depth. -/
def orTimeout : Option Prog → Res Prog
  | some r => .ok r
  | none => .timeout

/-- A pass that only looks at the definitions. -/
def onDefs (f : Program → Option Program) (r : Prog) : Option Prog := (f r.1).map fun p => (p, r.2)

/-- The passes in the order of `optimize_iteration`, `opt.rs:42-55`; the inliner walks down to
depth `k`. -/
def passes (k : Nat) : List (Prog → Res Prog) :=
  [fun r => orPanic (saturate r.2 r.1),
   fun r => orTimeout (inlinePass k r.2 r.1),
   fun r => orPanic (onDefs moveMatch r),
   fun r => orPanic (onDefs (some ∘ inlineSimple) r),
   fun r => orPanic (onDefs (some ∘ reducePi) r),
   fun r => orPanic (onDefs (some ∘ reduceApply) r),
   fun r => orTimeout (inlinePass k r.2 r.1),
   fun r => orPanic (onDefs (some ∘ dce) r),
   fun r => orPanic (onDefs (some ∘ inlineSimple) r),
   fun r => orPanic (onDefs mergeMatch r)]

/-- The loop over the passes, `opt.rs:57-60`.  `verify` only reads the program; that it does not
panic is assumed. -/
def runPasses : List (Prog → Res Prog) → Prog → Res Prog
  | [], r => .ok r
  | f :: fs, r => (f r).bind (runPasses fs)

/-- `optimize_iteration`, `opt.rs:38-60`. -/
def optIteration (k : Nat) (r : Prog) : Res Prog := runPasses (passes k) r

/-- The loop in `optimize`, `opt.rs:21-28`: at most `n` more turns, `h` is `hash`.  `hash_program`
is any function of the program. -/
def optLoop (hash : Prog → UInt64) (k : Nat) : Nat → UInt64 → Prog → Res Prog
  | 0, _, r => .ok r
  | n + 1, h, r => (optIteration k r).bind fun r' => if hash r' = h then .ok r' else optLoop hash k n (hash r') r'

/-- `optimize`, `opt.rs:14-30`. -/
def optimize (hash : Prog → UInt64) (k : Nat) (enabled : Bool) (r : Prog) : Res Prog :=
  if enabled then optLoop hash k 10 (hash r) r else .ok r

end Tic.Core
