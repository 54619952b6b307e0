import Verif.Walk
/-
`ticc/src/codegen/opt/inline.rs`: inlining of values and of functions that are called with
enough arguments.
-/
namespace Tic.Core

/-- The node with other immediate subexpressions, in the order of `children`. -/
def rebuild : Expr → List Expr → Expr
  | .call _ _, f :: xs => .call f xs
  | .ite _ _ _, [c, t, e] => .ite c t e
  | .op _ o _, [a, b] => .op a o b
  | .intr i _, xs => .intr i xs
  | .lam ps _, [b] => .lam ps b
  | .mtch _ bs, e :: xs => .mtch e (List.zipWith (fun b x => .mk b.ctor b.binds x) bs xs)
  | .con c ts _, xs => .con c ts xs
  | .let_ n _ _, [v, e] => .let_ n v e
  | .letrec n t _ _, [v, e] => .letrec n t v e
  | .pi v _, [e] => .pi v e
  | .piApp _ t, [e] => .piApp e t
  | e, _ => e

/-! ### Copying with fresh binders -/

/-- `struct Names`, `inline.rs:26-31`, with the part of the generators that decides the new
names (`ir.rs:120-123,136-145,163-181`: names are numbered consecutively; the display name
that `new_copy` carries over plays no role).  The maps are lists with the newest entry first. -/
structure Cp where
  next : Nat
  nextTy : Nat
  ren : List (Name × Name)
  renTy : List (TyVar × TyVar)

/-- `HashMap::get(..).copied().unwrap_or(..)`, `inline.rs:63,88`. -/
def getR (m : List (Nat × Nat)) (x : Nat) : Nat := ((m.find? fun p => p.1 == x).map (·.2)).getD x

/-- `copy_name`, `inline.rs:34-38`.  (`new_copy` would panic for a name that the generator did
not make; all names of a program are below the generator's limit.) -/
def Cp.name (c : Cp) (n : Name) : Name × Cp := (c.next, { c with next := c.next + 1, ren := (n, c.next) :: c.ren })

/-- `copy_ty`, `inline.rs:40-44`. -/
def Cp.tyVar (c : Cp) (n : TyVar) : TyVar × Cp :=
  (c.nextTy, { c with nextTy := c.nextTy + 1, renTy := (n, c.nextTy) :: c.renTy })

mutual
/-- `copy_ty`, `inline.rs:58-82`. -/
def copyTy : Ty → Cp → Ty × Cp
  | .bool, c => (.bool, c)
  | .int, c => (.int, c)
  | .string, c => (.string, c)
  | .var v, c => (.var (getR c.renTy v), c)
  | .named n ts, c => let r := copyTys ts c; (.named n r.1, r.2)
  | .fn ts t, c => let r := copyTys ts c; let r2 := copyTy t r.2; (.fn r.1 r2.1, r2.2)
  | .abs v t, c => let w := c.tyVar v; let r := copyTy t w.2; (.abs w.1 r.1, r.2)
/-- ... in order. -/
def copyTys : List Ty → Cp → List Ty × Cp
  | [], c => ([], c)
  | t :: ts, c => let r := copyTy t c; let r2 := copyTys ts r.2; (r.1 :: r2.1, r2.2)
end

/-- The parameters of a lambda, `inline.rs:116-123`. -/
def copyParams : List (Name × Ty) → Cp → List (Name × Ty) × Cp
  | [], c => ([], c)
  | (n, t) :: ps, c =>
    let a := c.name n
    let r := copyTy t a.2
    let r2 := copyParams ps r.2
    ((a.1, r.1) :: r2.1, r2.2)

/-- The bindings of a branch, `inline.rs:133-137`. -/
def copyNames : List Name → Cp → List Name × Cp
  | [], c => ([], c)
  | n :: ns, c => let a := c.name n; let r := copyNames ns a.2; (a.1 :: r.1, r.2)

mutual
/-- `copy`, `inline.rs:83-181`. -/
def copyE : Expr → Cp → Expr × Cp
  | .bool b, c => (.bool b, c)
  | .int i, c => (.int i, c)
  | .str s, c => (.str s, c)
  | .name n, c => (.name (getR c.ren n), c)
  | .call f xs, c => let r := copyE f c; let r2 := copyL xs r.2; (.call r.1 r2.1, r2.2)
  | .intr i xs, c => let r := copyL xs c; (.intr i r.1, r.2)
  | .ite a b d, c =>
    let r := copyE a c; let r2 := copyE b r.2; let r3 := copyE d r2.2; (.ite r.1 r2.1 r3.1, r3.2)
  | .op a o b, c => let r := copyE a c; let r2 := copyE b r.2; (.op r.1 o r2.1, r2.2)
  | .lam ps a, c => let r := copyParams ps c; let r2 := copyE a r.2; (.lam r.1 r2.1, r2.2)
  | .mtch a bs, c => let r := copyE a c; let r2 := copyB bs r.2; (.mtch r.1 r2.1, r2.2)
  | .con n ts xs, c => let r := copyL xs c; let r2 := copyTys ts r.2; (.con n r2.1 r.1, r2.2)
  | .let_ n a b, c =>
    let m := c.name n; let r := copyE a m.2; let r2 := copyE b r.2; (.let_ m.1 r.1 r2.1, r2.2)
  | .letrec n t a b, c =>
    let m := c.name n; let u := copyTy t m.2; let r := copyE a u.2; let r2 := copyE b r.2
    (.letrec m.1 u.1 r.1 r2.1, r2.2)
  | .trap m t, c => let r := copyTy t c; (.trap m r.1, r.2)
  | .pi v e, c => let w := c.tyVar v; let r := copyE e w.2; (.pi w.1 r.1, r.2)
  | .piApp e t, c => let r := copyE e c; let r2 := copyTy t r.2; (.piApp r.1 r2.1, r2.2)
/-- ... of a list, in order. -/
def copyL : List Expr → Cp → List Expr × Cp
  | [], c => ([], c)
  | e :: es, c => let r := copyE e c; let r2 := copyL es r.2; (r.1 :: r2.1, r2.2)
/-- ... of the branches, `inline.rs:131-144`. -/
def copyB : List Branch → Cp → List Branch × Cp
  | [], c => ([], c)
  | .mk n xs e :: bs, c =>
    let r := copyNames xs c; let r2 := copyE e r.2; let r3 := copyB bs r2.2
    (.mk n r.1 r2.1 :: r3.1, r3.2)
end

/-! ### What can be inlined -/

mutual
/-- `count_uses`, `inline.rs:324-350`. -/
def usesI (x : Name) (sl : Bool) : Expr → Nat
  | .bool _ => 0
  | .int _ => 0
  | .str _ => 0
  | .trap _ _ => 0
  | .name y => if y = x then 1 else 0
  | .call f xs => usesI x sl f + usesIL x sl xs
  | .intr _ xs => usesIL x sl xs
  | .op a _ b => usesI x false a + usesI x false b
  | .let_ _ a b => usesI x false a + usesI x false b
  | .letrec _ _ a b => usesI x false a + usesI x false b
  | .ite a b c => usesI x false a + usesI x false b + usesI x false c
  | .lam _ a => if sl then usesI x sl a else 1000
  | .mtch a bs => usesI x false a + usesIB x bs
  | .con _ _ xs => usesIL x false xs
  | .pi _ a => usesI x false a
  | .piApp a _ => usesI x false a
/-- ... summed over a list. -/
def usesIL (x : Name) (sl : Bool) : List Expr → Nat
  | [] => 0
  | e :: es => usesI x sl e + usesIL x sl es
/-- ... summed over the branches. -/
def usesIB (x : Name) : List Branch → Nat
  | [] => 0
  | .mk _ _ e :: bs => usesI x false e + usesIB x bs
end

/-- `check_inlinable`, `inline.rs:291-306`. -/
def checkInlinable : Expr → Bool → Option Nat
  | .lam ps e, _ =>
    if ps.all fun p => decide (usesI p.1 true e ≤ 1) then (checkInlinable e true).map (· + 1) else none
  | .name _, _ => some 0
  | .int _, _ => some 0
  | .bool _, _ => some 0
  | .pi _ e, cx => checkInlinable e cx
  | .con _ _ args, cx => if args.isEmpty then some 0 else if cx then some 0 else none
  | _, cx => if cx then some 0 else none

mutual
/-- `size`, `inline.rs:352-371`. -/
def isize : Expr → Nat
  | .bool _ => 1
  | .int _ => 1
  | .str _ => 1
  | .name _ => 1
  | .call f xs => isize f + isizeL xs + 1
  | .ite a b c => isize a + isize b + isize c + 1
  | .op a _ b => isize a + isize b + 1
  | .intr _ xs => isizeL xs + 1
  | .lam ps e => ps.length + isize e + 1
  | .mtch e bs => isize e + isizeB bs + 1
  | .con _ _ xs => isizeL xs + 1
  | .let_ _ v e => isize v + isize e + 1
  | .letrec _ _ v e => isize v + isize e + 1
  | .pi _ e => isize e + 1
  | .piApp e _ => isize e + 1
  | .trap _ _ => 1
/-- ... of a list. -/
def isizeL : List Expr → Nat
  | [] => 0
  | e :: es => isize e + isizeL es
/-- ... of branches. -/
def isizeB : List Branch → Nat
  | [] => 0
  | .mk _ xs e :: bs => xs.length + isize e + 1 + isizeB bs
end

/-- `check_small_inlinable`, `inline.rs:308-322`. -/
def checkSmall : Expr → Option Nat
  | .lam _ e => (checkSmall e).map (· + 1)
  | .pi _ e => checkSmall e
  | e => if isize e ≤ 30 then some 0 else none

/-- `check_for_inline`, `inline.rs:282-289`. -/
def checkForInline : Expr → Option (Name × Nat)
  | .name n => some (n, 0)
  | .call e _ => (checkForInline e).map fun p => (p.1, p.2 + 1)
  | .piApp e _ => checkForInline e
  | _ => none

/-- `inline`, `inline.rs:273-280` (only used where `check_for_inline` found a name, so the
unreachable case is left as it is). -/
def inlineAt (d : Expr) : Expr → Expr
  | .name _ => d
  | .call e xs => .call (inlineAt d e) xs
  | .piApp e t => .piApp (inlineAt d e) t
  | e => e

/-! ### The pass -/

/-- The state of the pass: the generators and `inlinables`, `inline.rs:11-17,47-50`.  An entry
is the name, its value and the number of calls it needs; newest first. -/
structure InlSt where
  next : Nat
  nextTy : Nat
  inl : List (Name × Expr × Nat)

/-- `inlinables.get`. -/
def InlSt.get (st : InlSt) (x : Name) : Option (Expr × Nat) := (st.inl.find? fun p => p.1 == x).map (·.2)

/-- `inlinables.insert`, if there is a number of calls. -/
def InlSt.insert (st : InlSt) (x : Name) (v : Expr) : Option Nat → InlSt
  | some calls => { st with inl := (x, v, calls) :: st.inl }
  | none => st

/-- `create_copy`, `inline.rs:57,182-184`. -/
def createCopy (v : Expr) (st : InlSt) : Expr × InlSt :=
  let r := copyE v ⟨st.next, st.nextTy, [], []⟩
  (r.1, { st with next := r.2.next, nextTy := r.2.nextTy })

/-- The second half of `inline_functions`, `inline.rs:264-270`. -/
def inlineNode (e : Expr) (st : InlSt) : Expr × InlSt :=
  match checkForInline e with
  | some (x, calls) =>
    match st.get x with
    | some (v, need) => if need ≤ calls then let r := createCopy v st; (inlineAt r.1 e, r.2) else (e, st)
    | none => (e, st)
  | none => (e, st)

/-- Visiting expressions in order. -/
def goL (g : Expr → InlSt → Option (Expr × InlSt)) : List Expr → InlSt → Option (List Expr × InlSt)
  | [], st => some ([], st)
  | e :: es, st => (g e st).bind fun r => (goL g es r.2).bind fun r2 => some (r.1 :: r2.1, r2.2)

/-- The descent of `go`, `inline.rs:202-248`: of a `let` only the rest is visited. -/
def goSub (g : Expr → InlSt → Option (Expr × InlSt)) : Expr → InlSt → Option (Expr × InlSt)
  | .let_ n v e, st => (g e st).bind fun r => some (.let_ n v r.1, r.2)
  | e, st => (goL g ((children e).map (·.2)) st).bind fun r => some (rebuild e r.1, r.2)

/-- `go` of `walk_expressions`, `inline.rs:190-251`, with `inline_functions`
(`inline.rs:253-271`) at every node, down to depth `n` (`none` if that is not enough;
`inline_preserves` shows that some depth is).

The value of a `let` is visited before the `let` itself, where it may become inlinable, and
the rest is visited last (`inline.rs:198-200,258-262,229-232`); a node that became a `let` by
inlining has only its rest visited.  Everything else is inlined into first and then descended
into. -/
def inlineGo : Nat → Expr → InlSt → Option (Expr × InlSt)
  | 0, _, _ => none
  | k + 1, .let_ n v e, st =>
    (inlineGo k v st).bind fun r =>
      goSub (inlineGo k) (.let_ n r.1 e) (r.2.insert n r.1 (checkInlinable r.1 false))
  | k + 1, e, st => let r := inlineNode e st; goSub (inlineGo k) r.1 r.2

/-- The loop over the definitions, `inline.rs:19-24`. -/
def inlineDefs (k : Nat) : List ValueDef → InlSt → Option (List ValueDef × InlSt)
  | [], st => some ([], st)
  | d :: ds, st =>
    (inlineGo k d.value st).bind fun r =>
      (inlineDefs k ds (r.2.insert d.name r.1 ((checkInlinable r.1 false).or (checkSmall r.1)))).bind fun r2 =>
        some ({ d with value := r.1 } :: r2.1, r2.2)

/-- The generators of a program, `ir.rs:102-106`: the number of names and of type variables
handed out so far. -/
structure Gens where
  names : Nat
  tys : Nat

/-- `inline::optimize`, `inline.rs:10-25`, walking down to depth `k`. -/
def inlinePass (k : Nat) (g : Gens) (p : Program) : Option (Program × Gens) :=
  (inlineDefs k p.defs ⟨g.names, g.tys, []⟩).map fun r => ({ p with defs := r.1 }, ⟨r.2.next, r.2.nextTy⟩)

end Tic.Core
