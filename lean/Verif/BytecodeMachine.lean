import Verif.BytecodeLink
/-
Running linked code: one lemma per operation, stated in terms of positions in the unlinked code.
-/
namespace Tic.Core.Bc

/-- A machine that runs compiled code: the operations, the tables, the functions, where the machine is at a position, the tag of closures of the function at a position,
return addresses, and one step.  The linked bytecode (`Lk`) is one; the operations as the JIT sees them are another. -/
structure LP where
  ops : List BOp
  st : LinkSt
  fns : List (List BOp)
  /-- bound on the size of expressions -/
  D : Nat
  addr : Nat → Nat
  clo : Nat → Nat
  ret : UInt64 → TVal
  step : VM → VStep

/-- The operations of `code` are at position `i`. -/
def CodeAt (P : LP) (i : Nat) (code : List BOp) : Prop := ∀ (j : Nat) o, code[j]? = some o → P.ops[i + j]? = some o

theorem CodeAt.append {P : LP} {i : Nat} {a b : List BOp} (h : CodeAt P i (a ++ b)) : CodeAt P i a ∧ CodeAt P (i + a.length) b := by
  constructor
  · intro j o hj
    exact h j o (by rw [List.getElem?_append_left (List.getElem?_eq_some_iff.1 hj).1]; exact hj)
  · intro j o hj
    have := h (a.length + j) o (by rw [List.getElem?_append_right (by omega), Nat.add_sub_cancel_left]; exact hj)
    rwa [← Nat.add_assoc] at this

theorem CodeAt.cons {P : LP} {i : Nat} {o : BOp} {b : List BOp} (h : CodeAt P i (o :: b)) :
    P.ops[i]? = some o ∧ CodeAt P (i + 1) b := by
  have := CodeAt.append (a := [o]) (b := b) h
  exact ⟨this.1 0 o rfl, this.2⟩

/-- `k` steps of the machine. -/
def Steps (P : LP) : Nat → VM → VM → Prop
  | 0, s, s' => s = s'
  | k + 1, s, s' => ∃ t, P.step s = .next t ∧ Steps P k t s'

theorem Steps.trans {P : LP} : ∀ {k k' : Nat} {a b c : VM}, Steps P k a b → Steps P k' b c → Steps P (k + k') a c
  | 0, k', a, b, c, h, h' => by
    cases h; rw [Nat.zero_add]; exact h'
  | k + 1, k', a, b, c, ⟨t, h1, h2⟩, h' => by
    rw [Nat.add_right_comm]
    exact ⟨t, h1, h2.trans h'⟩

theorem Steps.one {P : LP} {a b : VM} (h : P.step a = .next b) : Steps P 1 a b := ⟨b, h, rfl⟩

/-- The first entry of a branch table with a constructor: its label and its number of fields. -/
def tableFind (c : Name) : List (Name × Nat × Nat) → Option (Nat × Nat)
  | [] => none
  | (c', l, k) :: t => if c' = c then some (l, k) else tableFind c t

/-- Some operation builds closures of the function at position `i`. -/
def LP.isFn (P : LP) (i : Nat) : Prop := ∃ (p l n : Nat), P.ops[p]? = some (BOp.closure l n) ∧ P.ops[i]? = some (.label l)

/-- Not a return address that is marked as one. -/
def plain : TVal → Prop
  | .obj tag _ => tag < 2 ^ 64
  | _ => True

/-- What the machine does, one clause per operation. -/
structure LP.OK (P : LP) : Prop where
  fn : ∀ f ∈ P.fns, ∃ i, CodeAt P i f
  ctors : P.st.ctors.length ≤ tagSize
  addr_lt : ∀ {i : Nat}, P.addr i < tagSize
  clo_div : ∀ {i : Nat}, P.isFn i → P.clo i / tagSize = 4
  silent : ∀ {i : Nat} {o : BOp}, P.ops[i]? = some o → o.silent = true → P.addr (i + 1) = P.addr i
  step_pushInt : ∀ {i : Nat} {T : List TVal} {x : UInt64} (_h : P.ops[i]? = some (.pushInt x)),
    P.step ⟨P.addr i, T⟩ = .next ⟨P.addr (i + 1), .int x :: T⟩
  step_pushBool : ∀ {i : Nat} {T : List TVal} {x : Bool} (_h : P.ops[i]? = some (.pushBool x)),
    P.step ⟨P.addr i, T⟩ = .next ⟨P.addr (i + 1), .bool x :: T⟩
  step_pushStr : ∀ {i : Nat} {T : List TVal} {x : List UInt8} (_h : P.ops[i]? = some (.pushStr x)),
    P.step ⟨P.addr i, T⟩ = .next ⟨P.addr (i + 1), .str x :: T⟩
  step_pick : ∀ {i : Nat} {T : List TVal} {d : Nat} {v : TVal} (_h : P.ops[i]? = some (.pick d)) (_hv : T[d]? = some v),
    P.step ⟨P.addr i, T⟩ = .next ⟨P.addr (i + 1), v :: T⟩
  step_set : ∀ {i : Nat} {T : List TVal} {d : Nat} {v : TVal} (_h : P.ops[i]? = some (.set d)) (_hv : d < T.length),
    P.step ⟨P.addr i, v :: T⟩ = .next ⟨P.addr (i + 1), T.set d v⟩
  step_popN : ∀ {i : Nat} {T : List TVal} {n : Nat} (_h : P.ops[i]? = some (.popN n)) (_hv : n ≤ T.length),
    P.step ⟨P.addr i, T⟩ = .next ⟨P.addr (i + 1), T.drop n⟩
  step_swapPop : ∀ {i : Nat} {T : List TVal} {v w : TVal} (_h : P.ops[i]? = some .swapPop),
    P.step ⟨P.addr i, v :: w :: T⟩ = .next ⟨P.addr (i + 1), v :: T⟩
  step_arith : ∀ {i : Nat} {T : List TVal} {o : Op} {a b : UInt64} (_h : P.ops[i]? = some (.arith o)),
    P.step ⟨P.addr i, .int b :: .int a :: T⟩ = .next ⟨P.addr (i + 1), vmOp o a b :: T⟩
  step_jump : ∀ {i : Nat} {T : List TVal} {l j : Nat} (_h : P.ops[i]? = some (.jump l)) (_hl : P.ops[j]? = some (.label l)),
    P.step ⟨P.addr i, T⟩ = .next ⟨P.addr j, T⟩
  step_jumpIfFalse_true : ∀ {i : Nat} {T : List TVal} {l : Nat} (_h : P.ops[i]? = some (.jumpIfFalse l)),
    P.step ⟨P.addr i, .bool true :: T⟩ = .next ⟨P.addr (i + 1), T⟩
  step_jumpIfFalse_false : ∀ {i : Nat} {T : List TVal} {l j : Nat} (_h : P.ops[i]? = some (.jumpIfFalse l)) (_hl : P.ops[j]? = some (.label l)),
    P.step ⟨P.addr i, .bool false :: T⟩ = .next ⟨P.addr j, T⟩
  step_ret : ∀ {i : Nat} {p c : Nat} {v : TVal} {cs ps B : List TVal} {r : UInt64} {f : TVal} (_h : P.ops[i]? = some (.ret p c))
    (_hc : cs.length = c) (_hp : ps.length = p),
    P.step ⟨P.addr i, v :: (cs ++ (P.ret r :: f :: (ps ++ B)))⟩ = .next ⟨r.toNat, v :: B⟩
  step_call : ∀ {i : Nat} {T : List TVal} {j : Nat} {fs : List TVal} (_h : P.ops[i]? = some .call) (_hj : P.isFn j),
    P.step ⟨P.addr i, .obj (P.clo j) fs :: T⟩ =
      .next ⟨P.addr j, P.ret (UInt64.ofNat (P.addr (i + 1))) :: .obj (P.clo j) fs :: T⟩
  steps_enter : ∀ {i : Nat} {T : List TVal} {n u : Nat} {r f : TVal} {tag : Nat} {fs : List TVal} (_h : P.ops[i]? = some (.enter n u))
    (_hf : f = .obj tag fs) (_hp : plain f) (_hn : fs.length = n),
    ∃ k, Steps P k ⟨P.addr i, r :: f :: T⟩ ⟨P.addr (i + 1), fs.reverse ++ (r :: f :: T)⟩
  step_construct : ∀ {i : Nat} {T : List TVal} {c : Name} {n : Nat} (_h : P.ops[i]? = some (.construct c n)) (_hn : n ≤ T.length) (_hv : ∀ v ∈ T.take n, plain v),
    ∃ tag, HasTag P.st c tag ∧
      P.step ⟨P.addr i, T⟩ = .next ⟨P.addr (i + 1), .obj tag (T.take n).reverse :: T.drop n⟩
  step_closure : ∀ {i : Nat} {T : List TVal} {l n j : Nat} (_h : P.ops[i]? = some (.closure l n)) (_hl : P.ops[j]? = some (.label l)) (_hn : n ≤ T.length) (_hv : ∀ v ∈ T.take n, plain v),
    P.step ⟨P.addr i, T⟩ = .next ⟨P.addr (i + 1), .obj (P.clo j) (T.take n).reverse :: T.drop n⟩
  step_branch : ∀ {i : Nat} {T : List TVal} {t : List (Name × Nat × Nat)} {c : Name} {k l j tag : Nat} {fs : List TVal} (_h : P.ops[i]? = some (.branch t)) (_hc : HasTag P.st c tag)
    (_ht : tableFind c t = some (l, k)) (_hk : fs.length = k) (_hl : P.ops[j]? = some (.label l)),
    P.step ⟨P.addr i, .obj tag fs :: T⟩ = .next ⟨P.addr j, fs.reverse ++ T⟩
  step_trap : ∀ {i : Nat} {T : List TVal} {m : String} (_h : P.ops[i]? = some (.trap m)),
    P.step ⟨P.addr i, T⟩ = .trap m
  step_intr : ∀ {i : Nat} {T : List TVal} {n : Intrinsic} {T' : List TVal} (_h : P.ops[i]? = some (.intr n)) (_ht : vmIntr n T = some T'),
    P.step ⟨P.addr i, T⟩ = .next ⟨P.addr (i + 1), T'⟩
  step_exit : ∀ {i : Nat} {T : List TVal} (_h : P.ops[i]? = some .exit),
    P.step ⟨P.addr i, T⟩ = .exit T

/-! ## Tags -/

theorem fnTag_mod {a : Nat} (h : a < tagSize) : (a ||| fnTag) % tagSize = a := by
  rw [fnTag, tagSize, show (4 * 2 ^ 48 : Nat) = 2 ^ 48 * 4 by decide, Nat.or_comm, ← Nat.two_pow_add_eq_or_of_lt h]
  rw [Nat.mul_add_mod]
  exact Nat.mod_eq_of_lt h

theorem fnTag_div {a : Nat} (h : a < tagSize) : (a ||| fnTag) / tagSize = 4 := by
  rw [fnTag, tagSize, show (4 * 2 ^ 48 : Nat) = 2 ^ 48 * 4 by decide, Nat.or_comm, ← Nat.two_pow_add_eq_or_of_lt h]
  rw [Nat.mul_add_div (by decide), Nat.div_eq_of_lt (show a < 2 ^ 48 from h)]

theorem objTag_mod {a : Nat} (h : a < tagSize) : (a ||| objTag) % tagSize = a := by
  rw [objTag, tagSize, show (2 * 2 ^ 48 : Nat) = 2 ^ 48 * 2 by decide, Nat.or_comm, ← Nat.two_pow_add_eq_or_of_lt h]
  rw [Nat.mul_add_mod]
  exact Nat.mod_eq_of_lt h

theorem objTag_div {a : Nat} (h : a < tagSize) : (a ||| objTag) / tagSize = 2 := by
  rw [objTag, tagSize, show (2 * 2 ^ 48 : Nat) = 2 ^ 48 * 2 by decide, Nat.or_comm, ← Nat.two_pow_add_eq_or_of_lt h]
  rw [Nat.mul_add_div (by decide), Nat.div_eq_of_lt (show a < 2 ^ 48 from h)]

/-! ## Linked code -/

/-- A compiled and linked program: the operations, what they are linked to, the tables and the functions. -/
structure Lk where
  ops : List BOp
  lops : List LOp
  st : LinkSt
  fns : List (List BOp)
  /-- bound on the size of expressions -/
  D : Nat

/-- Address of a position. -/
def Lk.addr (P : Lk) (i : Nat) : Nat := addrOf P.ops i
/-- One step of the machine. -/
def Lk.step (P : Lk) (s : VM) : VStep := vmStep P.lops P.st.consts s

/-- The machine of linked code. -/
def Lk.lp (P : Lk) : LP := ⟨P.ops, P.st, P.fns, P.D, P.addr, fun i => P.addr i ||| fnTag, .int, P.step⟩

/-- What linking guarantees. -/
structure Lk.OK (P : Lk) : Prop where
  at_ : ∀ (i : Nat) o, P.ops[i]? = some o → o.silent = false →
    ∃ lo, P.lops[P.addr i]? = some lo ∧ LinkedOp (labelAddrs P.ops 0 []) P.st o lo
  lbl : ∀ (i : Nat) l, P.ops[i]? = some (.label l) → assoc l (labelAddrs P.ops 0 []) = some (P.addr i)
  fn : ∀ f ∈ P.fns, ∃ i, ∀ (j : Nat) o, f[j]? = some o → P.ops[i + j]? = some o
  small : P.ops.length < tagSize
  ctors : P.st.ctors.length ≤ tagSize

theorem Lk.OK.silent {P : Lk} {i : Nat} {o : BOp} (h : P.ops[i]? = some o) (hs : o.silent = true) :
    P.addr (i + 1) = P.addr i := by
  rw [Lk.addr, addrOf_succ h, if_pos hs]; rfl

theorem Lk.OK.loud {P : Lk} {i : Nat} {o : BOp} (h : P.ops[i]? = some o) (hs : o.silent = false) :
    P.addr (i + 1) = P.addr i + 1 := by
  rw [Lk.addr, addrOf_succ h, if_neg (by rw [hs]; decide)]; rfl

theorem Lk.OK.lt {P : Lk} (hP : P.OK) {i : Nat} : P.addr i < tagSize :=
  Nat.lt_of_le_of_lt (addrOf_le _ _) hP.small

section
variable {P : Lk} (hP : P.OK) {i : Nat} {T : List TVal}
include hP

theorem Lk.step_pushInt {x : UInt64} (h : P.ops[i]? = some (.pushInt x)) :
    P.step ⟨P.addr i, T⟩ = .next ⟨P.addr (i + 1), .int x :: T⟩ := by
  obtain ⟨lo, h1, h2⟩ := hP.at_ i _ h rfl
  cases h2
  rw [Lk.OK.loud h rfl, Lk.step, vmStep]; simp only [h1]

theorem Lk.step_pushBool {x : Bool} (h : P.ops[i]? = some (.pushBool x)) :
    P.step ⟨P.addr i, T⟩ = .next ⟨P.addr (i + 1), .bool x :: T⟩ := by
  obtain ⟨lo, h1, h2⟩ := hP.at_ i _ h rfl
  cases h2
  rw [Lk.OK.loud h rfl, Lk.step, vmStep]; simp only [h1]

theorem Lk.step_pushStr {x : List UInt8} (h : P.ops[i]? = some (.pushStr x)) :
    P.step ⟨P.addr i, T⟩ = .next ⟨P.addr (i + 1), .str x :: T⟩ := by
  obtain ⟨lo, h1, j, rfl, h2⟩ := hP.at_ i _ h rfl
  rw [Lk.OK.loud h rfl, Lk.step, vmStep]; simp only [h1, h2]

theorem Lk.step_pick {d : Nat} {v : TVal} (h : P.ops[i]? = some (.pick d)) (hv : T[d]? = some v) :
    P.step ⟨P.addr i, T⟩ = .next ⟨P.addr (i + 1), v :: T⟩ := by
  obtain ⟨lo, h1, h2⟩ := hP.at_ i _ h rfl
  cases h2
  rw [Lk.OK.loud h rfl, Lk.step, vmStep]; simp only [h1, hv]

theorem Lk.step_set {d : Nat} {v : TVal} (h : P.ops[i]? = some (.set d)) (hv : d < T.length) :
    P.step ⟨P.addr i, v :: T⟩ = .next ⟨P.addr (i + 1), T.set d v⟩ := by
  obtain ⟨lo, h1, h2⟩ := hP.at_ i _ h rfl
  cases h2
  rw [Lk.OK.loud h rfl, Lk.step, vmStep]; simp only [h1, hv, if_true]

theorem Lk.step_popN {n : Nat} (h : P.ops[i]? = some (.popN n)) (hv : n ≤ T.length) :
    P.step ⟨P.addr i, T⟩ = .next ⟨P.addr (i + 1), T.drop n⟩ := by
  obtain ⟨lo, h1, h2⟩ := hP.at_ i _ h rfl
  cases h2
  rw [Lk.OK.loud h rfl, Lk.step, vmStep]; simp only [h1, hv, if_true]

theorem Lk.step_swapPop {v w : TVal} (h : P.ops[i]? = some .swapPop) :
    P.step ⟨P.addr i, v :: w :: T⟩ = .next ⟨P.addr (i + 1), v :: T⟩ := by
  obtain ⟨lo, h1, h2⟩ := hP.at_ i _ h rfl
  cases h2
  rw [Lk.OK.loud h rfl, Lk.step, vmStep]; simp only [h1]

theorem Lk.step_arith {o : Op} {a b : UInt64} (h : P.ops[i]? = some (.arith o)) :
    P.step ⟨P.addr i, .int b :: .int a :: T⟩ = .next ⟨P.addr (i + 1), vmOp o a b :: T⟩ := by
  obtain ⟨lo, h1, h2⟩ := hP.at_ i _ h rfl
  cases h2
  rw [Lk.OK.loud h rfl, Lk.step, vmStep]; simp only [h1]

theorem Lk.step_jump {l j : Nat} (h : P.ops[i]? = some (.jump l)) (hl : P.ops[j]? = some (.label l)) :
    P.step ⟨P.addr i, T⟩ = .next ⟨P.addr j, T⟩ := by
  obtain ⟨lo, h1, a, rfl, h2⟩ := hP.at_ i _ h rfl
  rw [hP.lbl j l hl] at h2
  cases h2
  rw [Lk.step, vmStep]; simp only [h1]

theorem Lk.step_jumpIfFalse_true {l : Nat} (h : P.ops[i]? = some (.jumpIfFalse l)) :
    P.step ⟨P.addr i, .bool true :: T⟩ = .next ⟨P.addr (i + 1), T⟩ := by
  obtain ⟨lo, h1, a, rfl, h2⟩ := hP.at_ i _ h rfl
  rw [Lk.OK.loud h rfl, Lk.step, vmStep]; simp only [h1, if_true]

theorem Lk.step_jumpIfFalse_false {l j : Nat} (h : P.ops[i]? = some (.jumpIfFalse l)) (hl : P.ops[j]? = some (.label l)) :
    P.step ⟨P.addr i, .bool false :: T⟩ = .next ⟨P.addr j, T⟩ := by
  obtain ⟨lo, h1, a, rfl, h2⟩ := hP.at_ i _ h rfl
  rw [hP.lbl j l hl] at h2
  cases h2
  rw [Lk.step, vmStep]; simp [h1]

theorem Lk.step_ret {p c : Nat} {v : TVal} {cs ps B : List TVal} {r : UInt64} {f : TVal} (h : P.ops[i]? = some (.ret p c))
    (hc : cs.length = c) (hp : ps.length = p) :
    P.step ⟨P.addr i, v :: (cs ++ (.int r :: f :: (ps ++ B)))⟩ = .next ⟨r.toNat, v :: B⟩ := by
  obtain ⟨lo, h1, h2⟩ := hP.at_ i _ h rfl
  cases h2
  subst hc; subst hp
  rw [Lk.step, vmStep]
  simp only [h1, List.drop_left, List.length_append, Nat.le_add_right, if_true]

theorem Lk.step_call {tag : Nat} {fs : List TVal} (h : P.ops[i]? = some .call) :
    P.step ⟨P.addr i, .obj tag fs :: T⟩ =
      .next ⟨tag % tagSize, .int (UInt64.ofNat (P.addr (i + 1))) :: .obj tag fs :: T⟩ := by
  obtain ⟨lo, h1, h2⟩ := hP.at_ i _ h rfl
  cases h2
  rw [Lk.OK.loud h rfl, Lk.step, vmStep]; simp only [h1]

/-- The start of a function: nothing happens if there is nothing to unpack. -/
theorem Lk.steps_enter {n u : Nat} {r f : TVal} {tag : Nat} {fs : List TVal} (h : P.ops[i]? = some (.enter n u))
    (hf : f = .obj tag fs) (hn : fs.length = n) :
    ∃ k, Steps P.lp k ⟨P.addr i, r :: f :: T⟩ ⟨P.addr (i + 1), fs.reverse ++ (r :: f :: T)⟩ := by
  cases n with
  | zero =>
    rw [List.length_eq_zero_iff] at hn
    subst hn
    exact ⟨0, by rw [Steps, Lk.OK.silent h rfl]; rfl⟩
  | succ n =>
    obtain ⟨lo, h1, h2⟩ := hP.at_ i _ h rfl
    cases h2
    subst hf
    refine ⟨1, .one ?_⟩
    show P.step _ = _
    rw [Lk.OK.loud h rfl, Lk.step, vmStep]; simp only [h1]

theorem Lk.step_construct {c : Name} {n : Nat} (h : P.ops[i]? = some (.construct c n)) (hn : n ≤ T.length) :
    ∃ tag, HasTag P.st c tag ∧
      P.step ⟨P.addr i, T⟩ = .next ⟨P.addr (i + 1), .obj tag (T.take n).reverse :: T.drop n⟩ := by
  obtain ⟨lo, h1, tag, rfl, h2⟩ := hP.at_ i _ h rfl
  refine ⟨tag, h2, ?_⟩
  rw [Lk.OK.loud h rfl, Lk.step, vmStep]; simp only [h1, hn, if_true]

theorem Lk.step_closure {l n j : Nat} (h : P.ops[i]? = some (.closure l n)) (hl : P.ops[j]? = some (.label l)) (hn : n ≤ T.length) :
    P.step ⟨P.addr i, T⟩ = .next ⟨P.addr (i + 1), .obj (P.addr j ||| fnTag) (T.take n).reverse :: T.drop n⟩ := by
  obtain ⟨lo, h1, a, rfl, h2⟩ := hP.at_ i _ h rfl
  rw [hP.lbl j l hl] at h2
  cases h2
  rw [Lk.OK.loud h rfl, Lk.step, vmStep]; simp only [h1, hn, if_true]

theorem Lk.step_branch {t : List (Name × Nat × Nat)} {tag : Nat} {fs : List TVal} (h : P.ops[i]? = some (.branch t)) :
    ∃ t', LinkedTable (labelAddrs P.ops 0 []) P.st t t' ∧
      ∀ a, findTag tag t' = some a → P.step ⟨P.addr i, .obj tag fs :: T⟩ = .next ⟨a, fs.reverse ++ T⟩ := by
  obtain ⟨lo, h1, t', rfl, h2⟩ := hP.at_ i _ h rfl
  refine ⟨t', h2, fun a ha => ?_⟩
  rw [Lk.step, vmStep]; simp only [h1, ha]

theorem Lk.step_trap {m : String} (h : P.ops[i]? = some (.trap m)) : P.step ⟨P.addr i, T⟩ = .trap m := by
  obtain ⟨lo, h1, h2⟩ := hP.at_ i _ h rfl
  cases h2
  rw [Lk.step, vmStep]; simp only [h1]

theorem Lk.step_intr {n : Intrinsic} {T' : List TVal} (h : P.ops[i]? = some (.intr n)) (ht : vmIntr n T = some T') :
    P.step ⟨P.addr i, T⟩ = .next ⟨P.addr (i + 1), T'⟩ := by
  obtain ⟨lo, h1, h2⟩ := hP.at_ i _ h rfl
  cases h2
  rw [Lk.OK.loud h rfl, Lk.step, vmStep]; simp only [h1, ht]

theorem Lk.step_exit (h : P.ops[i]? = some .exit) : P.step ⟨P.addr i, T⟩ = .exit T := by
  obtain ⟨lo, h1, h2⟩ := hP.at_ i _ h rfl
  cases h2
  rw [Lk.step, vmStep]; simp only [h1]

end



theorem HasTag.fn' {st : LinkSt} {c c' : Name} {tag tag' : Nat} (h : HasTag st c tag) (h' : HasTag st c' tag') (e : c = c') : tag = tag' := by
  subst e
  obtain ⟨a, h1, h2⟩ := h
  obtain ⟨b, h3, h4⟩ := h'
  rw [h1] at h3
  cases h3
  rw [h2, h4]

theorem HasTag.inj' {st : LinkSt} (hc : st.ctors.length ≤ tagSize) {c c' : Name} {tag : Nat} (h : HasTag st c tag) (h' : HasTag st c' tag) : c = c' := by
  obtain ⟨a, h1, h2⟩ := h
  obtain ⟨b, h3, h4⟩ := h'
  have g1 := indexOf_get h1
  have g3 := indexOf_get h3
  have l1 := (List.getElem?_eq_some_iff.1 g1).1
  have l3 := (List.getElem?_eq_some_iff.1 g3).1
  have e : a = b := by
    rw [← objTag_mod (a := a) (by omega), ← objTag_mod (a := b) (by omega), ← h2, ← h4]
  subst e
  rw [g1] at g3
  exact Option.some.inj g3

theorem findTag_linked {st : LinkSt} (hs : st.ctors.length ≤ tagSize) {m : List (Nat × Nat)} {c : Name} {tag : Nat} (hc : HasTag st c tag) :
    ∀ {t : List (Name × Nat × Nat)} {t' : List (Nat × Nat)} {l k : Nat}, LinkedTable m st t t' →
    tableFind c t = some (l, k) → ∃ a, assoc l m = some a ∧ findTag tag t' = some a
  | [], _, _, _, _, h => by simp [tableFind] at h
  | (c', l', k') :: t, t', l, k, ht, h => by
    cases ht with
    | cons g1 g2 g3 =>
      rw [tableFind] at h
      split at h
      · rename_i he
        cases h
        exact ⟨_, g2, by rw [findTag, if_pos (HasTag.fn' g1 hc he)]⟩
      · rename_i he
        obtain ⟨a, q1, q2⟩ := findTag_linked hs hc g3 h
        refine ⟨a, q1, ?_⟩
        rw [findTag, if_neg (fun e => he (HasTag.inj' hs (by rw [← e]; exact g1) hc)), q2]

theorem Lk.OK.lp {P : Lk} (hP : P.OK) : P.lp.OK where
  fn := hP.fn
  ctors := hP.ctors
  addr_lt := hP.lt
  clo_div := fun _ => fnTag_div hP.lt
  silent := Lk.OK.silent
  step_pushInt := Lk.step_pushInt hP
  step_pushBool := Lk.step_pushBool hP
  step_pushStr := Lk.step_pushStr hP
  step_pick := Lk.step_pick hP
  step_set := Lk.step_set hP
  step_popN := Lk.step_popN hP
  step_swapPop := Lk.step_swapPop hP
  step_arith := Lk.step_arith hP
  step_jump := Lk.step_jump hP
  step_jumpIfFalse_true := Lk.step_jumpIfFalse_true hP
  step_jumpIfFalse_false := Lk.step_jumpIfFalse_false hP
  step_ret := Lk.step_ret hP
  step_call := fun h _ => by
    refine (Lk.step_call hP h).trans ?_
    show VStep.next ⟨(P.addr _ ||| fnTag) % tagSize, _⟩ = _
    rw [fnTag_mod hP.lt]; rfl
  steps_enter := fun h hf _ hn => Lk.steps_enter hP h hf hn
  step_construct := fun h hn _ => Lk.step_construct hP h hn
  step_closure := fun h hl hn _ => Lk.step_closure hP h hl hn
  step_branch := fun h hc ht _ hl => by
    obtain ⟨t', g1, g2⟩ := Lk.step_branch hP h
    obtain ⟨a, q1, q2⟩ := findTag_linked hP.ctors hc g1 ht
    have := hP.lbl _ _ hl
    rw [q1] at this
    cases this
    exact g2 _ q2
  step_trap := Lk.step_trap hP
  step_intr := Lk.step_intr hP
  step_exit := Lk.step_exit hP

end Tic.Core.Bc
