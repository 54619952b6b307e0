import Verif.WalkO
import Verif.Reduce
/-
`ticc/src/codegen/opt/merge_match.rs`.
-/
namespace Tic.Core

/-- `extract_ctor`, `merge_match.rs:30-50`. -/
def extractCtor : Expr → Option Name
  | .con c _ _ => some c
  | .let_ _ _ e => extractCtor e
  | .letrec _ _ _ e => extractCtor e
  | .pi _ e => extractCtor e
  | .piApp e _ => extractCtor e
  | _ => none

/-- Distinct elements of a list, as collected into a `HashSet`. -/
def distinct : List Name → List Name
  | [] => []
  | x :: xs => if x ∈ xs then distinct xs else x :: distinct xs

/-- `can_merge_branches`, `merge_match.rs:22-28`. -/
def canMerge (bs : List Branch) : Bool := (distinct (bs.filterMap fun b => extractCtor b.body)).length = bs.length

/-- Inserting into a list sorted by key, after the elements with the same key. -/
def insertBy {α : Type} (key : α → Nat) (a : α) : List α → List α
  | [] => [a]
  | b :: l => if key a < key b then a :: b :: l else b :: insertBy key a l

/-- `sort_by_cached_key`: a stable sort. -/
def sortBy {α : Type} (key : α → Nat) (l : List α) : List α := l.foldl (fun acc a => insertBy key a acc) []

/-- `outer_branches.remove(k)` on the `HashMap` collected from the outer branches
(`merge_match.rs:55-60`): the last branch for a constructor counts. -/
def takeBranch (k : Name) (bs : List Branch) : Option (Branch × List Branch) :=
  (bs.reverse.find? fun b => b.ctor = k).map fun b => (b, bs.filter fun b => b.ctor ≠ k)

/-- `merge_branch`, `merge_match.rs:69-103`; `none` where it panics. -/
def mergeBranch (outer : Branch) : Expr → Option Expr
  | .con c _ fields =>
    if c = outer.ctor ∧ fields.length = outer.binds.length then some (bindLets outer.binds fields outer.body) else none
  | .let_ n v e => (mergeBranch outer e).map fun e => .let_ n v e
  | .letrec n t v e => (mergeBranch outer e).map fun e => .letrec n t v e
  | .pi v e => (mergeBranch outer e).map fun e => .pi v e
  | .piApp e t => (mergeBranch outer e).map fun e => .piApp e t
  | _ => none

/-- The loop `merge_match.rs:59-62`; `none` where it panics. -/
def mergeLoop : List Branch → List Branch → Option (List Branch)
  | [], _ => some []
  | b :: bs, outer =>
    (extractCtor b.body).bind fun k => (takeBranch k outer).bind fun t => (mergeBranch t.1 b.body).bind fun e =>
      (mergeLoop bs t.2).map fun r => .mk b.ctor b.binds e :: r

/-- `merge_branches`, `merge_match.rs:52-67`.  The sort key is unwrapped before: `none` where
that panics. -/
def mergeBranches (d : Expr) (inner outer : List Branch) : Option Expr :=
  if inner.all (fun b => (extractCtor b.body).isSome) then
    (mergeLoop (sortBy (fun b => (extractCtor b.body).getD 0) inner) outer).map fun bs => .mtch d bs
  else none

/-- `optimize_expr`, `merge_match.rs:11-20`; `none` where it panics. -/
def mergeStep : Expr → Option Expr
  | .mtch (.mtch d inner) outer => if canMerge inner then mergeBranches d inner outer else some (.mtch (.mtch d inner) outer)
  | e => some e

mutual
/-- A size in which a constructor application counts one more per field (every field may become
a `let`). -/
def wsize : Expr → Nat
  | .call f xs => wsize f + wsizeL xs + 1
  | .ite c t e => wsize c + wsize t + wsize e + 1
  | .op a _ b => wsize a + wsize b + 1
  | .intr _ xs => wsizeL xs + 1
  | .lam _ b => wsize b + 1
  | .mtch e bs => wsize e + wsizeB bs + 1
  | .con _ _ xs => wsizeL xs + xs.length + 1
  | .let_ _ v e => wsize v + wsize e + 1
  | .letrec _ _ v e => wsize v + wsize e + 1
  | .pi _ e => wsize e + 1
  | .piApp e _ => wsize e + 1
  | _ => 1
/-- ... of a list. -/
def wsizeL : List Expr → Nat
  | [] => 0
  | e :: es => wsize e + wsizeL es
/-- ... of branches. -/
def wsizeB : List Branch → Nat
  | [] => 0
  | .mk _ _ e :: bs => wsize e + wsizeB bs
end

/-- A pass over the definitions that may panic. -/
def mapDefsO (g : Expr → Option Expr) (p : Program) : Option Program :=
  (allO (fun d : ValueDef => (g d.value).map fun v => { d with value := v }) p.defs).map fun ds => { p with defs := ds }

/-- `merge_match::optimize`, `merge_match.rs:5-9`; `none` where it panics.  `walkPre_mergeMatch_eq`
shows that the bound on the walk is never reached. -/
def mergeMatch (p : Program) : Option Program := mapDefsO (fun e => walkPreO (wsize e) mergeStep e) p

end Tic.Core
