/-
What the operations of the JIT mean for values: a machine like the one of `Jit.lean` whose stack has values instead of numbers and pointers, and which passes over labels.
-/
import Verif.Jit
import Verif.BytecodeProg

namespace Tic.Jit
open Tic.Core (Op Intrinsic BOp LinkSt Name Program Expr Obs Res HOut compileProgram allSome hvDecode tagSize objTag fnTag TVal VM VStep vmOp vmIntr)
open Tic.Core.Bc (LP)
open Tic.Core (HasTag)

/-- Operations that do nothing. -/
def JOp.silent : JOp → Bool
  | .label _ => true
  | .enter 0 _ => true
  | _ => false

/-- How many operations at the start do nothing. -/
def lead : List JOp → Nat
  | [] => 0
  | o :: ops => if o.silent then lead ops + 1 else 0

/-- The next operation that does something. -/
def skip (ops : List JOp) (i : Nat) : Nat := min i ops.length + lead (ops.drop i)

/-- Return addresses are marked with a tag that no object has. -/
def retTag : Nat := 2 ^ 64

def notRet : TVal → Bool
  | .obj tag _ => decide (tag < 2 ^ 64)
  | _ => true

/-- One operation. -/
def jmStep (entries : List Nat) (consts : List (List UInt8)) (ops : List JOp) (s : VM) : VStep :=
  match ops[s.ip]? with
  | none => .stuck
  | some o =>
    let go (st : List TVal) : VStep := .next ⟨skip ops (s.ip + 1), st⟩
    let goto (l : Nat) (st : List TVal) : VStep := match labelPos l ops with
      | some i => .next ⟨skip ops i, st⟩
      | none => .stuck
    match o, s.stack with
    | .pushInt x, st => go (.int x :: st)
    | .pushBool b, st => go (.bool b :: st)
    | .const i, st => match consts[i]? with
      | some s => go (.str s :: st)
      | none => .stuck
    | .pick d, st => match st[d]? with
      | some v => go (v :: st)
      | none => .stuck
    | .set d, v :: st => if d < st.length then go (st.set d v) else .stuck
    | .popN n, st => if n ≤ st.length then go (st.drop n) else .stuck
    | .swapPop, v :: _ :: st => go (v :: st)
    | .arith o, .int b :: .int a :: st => go (vmOp o a b :: st)
    | .jump l, st => goto l st
    | .jumpIfFalse l, .bool b :: st => if b then go st else goto l st
    | .ret params captures, v :: st => match st.drop captures with
      | .obj tag [.int r] :: _ :: st => if tag = retTag ∧ params ≤ st.length then .next ⟨r.toNat, v :: st.drop params⟩ else .stuck
      | _ => .stuck
    | .call, .obj tag fs :: st => match entries[tag % tagSize]? with
      | some i => if tag < 2 ^ 64 then .next ⟨skip ops i, .obj retTag [.int (UInt64.ofNat (skip ops (s.ip + 1)))] :: .obj tag fs :: st⟩ else .stuck
      | none => .stuck
    | .enter k _, r :: .obj tag fs :: st => if tag < 2 ^ 64 ∧ fs.length = k then go (fs.reverse ++ (r :: .obj tag fs :: st)) else .stuck
    | .construct tag n, st => if n ≤ st.length ∧ (st.take n).all notRet then go (.obj tag.toNat (st.take n).reverse :: st.drop n) else .stuck
    | .branch table, .obj tag fs :: st => match findBranch tag table with
      | some (n, l) => if tag < 2 ^ 64 ∧ fs.length = n then goto l (fs.reverse ++ st) else .stuck
      | none => .stuck
    | .trap m, _ => .trap m
    | .intr i, st => match vmIntr i st with
      | some st => go st
      | none => .stuck
    | .exit, st => .exit st
    | _, _ => .stuck

/-! ### Assembling -/

/-- The branches of a match as they are resolved. -/
inductive ResolvedTable (st : LinkSt) : List (Name × Nat × Nat) → List (UInt64 × Nat × Nat) → Prop
  | nil : ResolvedTable st [] []
  | cons {c l k tag t t'} : HasTag st c tag → ResolvedTable st t t' → ResolvedTable st ((c, l, k) :: t) ((UInt64.ofNat tag, k, l) :: t')

theorem ResolvedTable.le {st st' t t'} (h : ResolvedTable st t t') (hle : st.Le st') : ResolvedTable st' t t' := by
  induction h with
  | nil => exact .nil
  | cons h1 _ ih => exact .cons (h1.le hle) ih

/-- What an operation is resolved to. -/
def Resolved (fl : List Nat) (st : LinkSt) : BOp → JOp → Prop
  | .pushInt x, o => o = .pushInt x
  | .pushBool b, o => o = .pushBool b
  | .pushStr s, o => ∃ i, o = .const i ∧ st.consts[i]? = some s
  | .pick d, o => o = .pick d
  | .set d, o => o = .set d
  | .popN n, o => o = .popN n
  | .swapPop, o => o = .swapPop
  | .arith p, o => o = .arith p
  | .jump l, o => o = .jump l
  | .jumpIfFalse l, o => o = .jumpIfFalse l
  | .ret p c, o => o = .ret p c
  | .call, o => o = .call
  | .enter k u, o => o = .enter k u
  | .construct c n, o => ∃ tag, o = .construct (UInt64.ofNat tag) n ∧ HasTag st c tag
  | .closure l n, o => ∃ i, o = .construct (UInt64.ofNat (i + fnTag)) n ∧ fnIndex l fl = some i
  | .branch t, o => ∃ t', o = .branch t' ∧ ResolvedTable st t t'
  | .trap m, o => o = .trap m
  | .intr i, o => o = .intr i
  | .label l, o => o = .label l
  | .exit, o => o = .exit

theorem Resolved.le {fl st st' o j} (h : Resolved fl st o j) (hle : st.Le st') : Resolved fl st' o j := by
  cases o with
  | pushStr s =>
    obtain ⟨i, h1, h2⟩ := h
    obtain ⟨t, ht⟩ := hle.1
    exact ⟨i, h1, by rw [← ht, List.getElem?_append_left (List.getElem?_eq_some_iff.1 h2).1]; exact h2⟩
  | construct c n =>
    obtain ⟨tag, h1, h2⟩ := h
    exact ⟨tag, h1, h2.le hle⟩
  | branch t =>
    obtain ⟨t', h1, h2⟩ := h
    exact ⟨t', h1, h2.le hle⟩
  | _ => exact h

theorem resolveTable_inv : ∀ (t : List (Name × Nat × Nat)) (st : LinkSt), st.Le (resolveTable t st).2 ∧ ResolvedTable (resolveTable t st).2 t (resolveTable t st).1
  | [], st => ⟨.refl _, .nil⟩
  | (c, l, k) :: t, st => by
    obtain ⟨h1, h2⟩ := resolveTable_inv t (st.resolve c).2
    exact ⟨(Core.resolve_le st c).trans h1, .cons ((Core.resolve_tag st c).le h1) h2⟩

theorem resolveOp_inv {fl : List Nat} {st : LinkSt} {o : BOp} {r : JOp × LinkSt} (h : resolveOp fl st o = some r) : st.Le r.2 ∧ Resolved fl r.2 o r.1 := by
  cases o with
  | closure l n =>
    obtain ⟨a, ha, h⟩ := Option.map_eq_some_iff.1 h
    subst h
    exact ⟨.refl _, a, rfl, ha⟩
  | branch t =>
    cases h
    obtain ⟨h1, h2⟩ := resolveTable_inv t st
    exact ⟨h1, _, rfl, h2⟩
  | construct c n =>
    cases h
    exact ⟨Core.resolve_le st c, _, rfl, Core.resolve_tag st c⟩
  | pushStr s =>
    cases h
    exact ⟨⟨List.prefix_append _ _, List.prefix_refl _⟩, _, rfl, by simp⟩
  | _ => cases h; exact ⟨.refl _, rfl⟩

theorem resolveOps_inv {fl : List Nat} : ∀ {ops : List BOp} {st : LinkSt} {r : List JOp × LinkSt}, resolveOps fl ops st = some r →
    st.Le r.2 ∧ r.1.length = ops.length ∧ ∀ (i : Nat) o, ops[i]? = some o → ∃ j, r.1[i]? = some j ∧ Resolved fl r.2 o j
  | [], st, r, h => by
    cases h
    exact ⟨.refl _, rfl, fun i o h => by simp at h⟩
  | a :: ops, st, r, h => by
    rw [resolveOps] at h
    obtain ⟨r1, h1, h⟩ := Option.bind_eq_some_iff.1 h
    obtain ⟨r2, h2, h⟩ := Option.map_eq_some_iff.1 h
    subst h
    obtain ⟨g1, g2⟩ := resolveOp_inv h1
    obtain ⟨g3, gl, g4⟩ := resolveOps_inv h2
    refine ⟨g1.trans g3, by simp [gl], fun i o ho => ?_⟩
    cases i with
    | zero =>
      simp only [List.getElem?_cons_zero, Option.some.injEq] at ho
      subst ho
      exact ⟨_, rfl, g2.le g3⟩
    | succ i => exact g4 i o ho

theorem skip_at {ops : List JOp} {i : Nat} {o : JOp} (h : ops[i]? = some o) : skip ops i = if o.silent then skip ops (i + 1) else i := by
  obtain ⟨hi, rfl⟩ := List.getElem?_eq_some_iff.1 h
  rw [skip, skip, List.drop_eq_getElem_cons hi, lead]
  split <;> omega

theorem lead_le : ∀ ops : List JOp, lead ops ≤ ops.length
  | [] => Nat.le_refl _
  | o :: ops => by
    have := lead_le ops
    rw [lead, List.length_cons]
    split <;> omega

theorem skip_le (ops : List JOp) (i : Nat) : skip ops i ≤ ops.length := by
  have := lead_le (ops.drop i)
  rw [List.length_drop] at this
  rw [skip]
  omega

theorem labelPos_some {l : Nat} : ∀ {ops : List JOp} {i : Nat}, labelPos l ops = some i → ops[i]? = some (.label l)
  | [], i, h => by cases h
  | o :: ops, i, h => by
    rw [labelPos] at h
    split at h
    · rename_i e
      cases h
      rw [e]; rfl
    · obtain ⟨j, hj, rfl⟩ := Option.map_eq_some_iff.1 h
      exact labelPos_some (ops := ops) hj

theorem labelPos_isSome {l : Nat} : ∀ {ops : List JOp} {i : Nat}, ops[i]? = some (.label l) → ∃ j, labelPos l ops = some j
  | [], i, h => by cases h
  | o :: ops, i, h => by
    rw [labelPos]
    split
    · exact ⟨0, rfl⟩
    · rename_i e
      cases i with
      | zero =>
        rw [List.getElem?_cons_zero, Option.some.injEq] at h
        exact absurd h e
      | succ i =>
        obtain ⟨j, hj⟩ := labelPos_isSome (i := i) h
        exact ⟨j + 1, by rw [hj]; rfl⟩

theorem count_unique {α : Type} [DecidableEq α] {a : α} : ∀ {l : List α} {i j : Nat}, l.count a ≤ 1 → l[i]? = some a → l[j]? = some a → i = j
  | [], _, _, _, h, _ => by cases h
  | b :: l, 0, 0, _, _, _ => rfl
  | b :: l, 0, j + 1, h, h1, h2 => by
    simp only [List.getElem?_cons_zero, Option.some.injEq, List.getElem?_cons_succ] at h1 h2
    subst h1
    have := List.count_pos_iff.2 (List.mem_of_getElem? h2)
    rw [List.count_cons_self] at h
    omega
  | b :: l, i + 1, 0, h, h1, h2 => by
    simp only [List.getElem?_cons_zero, Option.some.injEq, List.getElem?_cons_succ] at h1 h2
    subst h2
    have := List.count_pos_iff.2 (List.mem_of_getElem? h1)
    rw [List.count_cons_self] at h
    omega
  | b :: l, i + 1, j + 1, h, h1, h2 => by
    have := List.count_le_count_cons (a := a) (b := b) (l := l)
    rw [count_unique (l := l) (by omega) h1 h2]

theorem allSome_get {α β : Type} {f : α → Option β} : ∀ {l : List α} {bs : List β}, allSome f l = some bs → ∀ (i : Nat) a, l[i]? = some a → bs[i]? = f a
  | [], _, _, i, a, h => by simp at h
  | x :: l, bs, e, i, a, h => by
    rw [allSome] at e
    obtain ⟨b, hb, e⟩ := Option.bind_eq_some_iff.1 e
    obtain ⟨bs', hbs, rfl⟩ := Option.map_eq_some_iff.1 e
    cases i with
    | zero =>
      rw [List.getElem?_cons_zero, Option.some.injEq] at h
      subst h
      rw [List.getElem?_cons_zero, hb]
    | succ i => exact allSome_get hbs i a h

theorem fnIndex_get {l : Nat} : ∀ {ls : List Nat} {i : Nat}, fnIndex l ls = some i → ls[i]? = some l
  | [], i, h => by cases h
  | a :: ls, i, h => by
    rw [fnIndex] at h
    split at h
    · rename_i e
      cases h
      rw [e]; rfl
    · obtain ⟨j, hj, rfl⟩ := Option.map_eq_some_iff.1 h
      exact fnIndex_get (ls := ls) hj

theorem fnLabels_length : ∀ (ops : List BOp) (ls : List Nat), (fnLabels ops ls).length ≤ ops.length + ls.length
  | [], ls => by simp [fnLabels]
  | o :: ops, ls => by
    cases o with
    | closure l n =>
      rw [fnLabels]
      have h := fnLabels_length ops (if l ∈ ls then ls else ls ++ [l])
      have h' : (if l ∈ ls then ls else ls ++ [l]).length ≤ ls.length + 1 := by split <;> simp
      simp only [List.length_cons]
      omega
    | _ =>
      rw [fnLabels]
      · have := fnLabels_length ops ls
        simp only [List.length_cons]; omega
      · intro l n e; cases e

/-! ### The machine is one that the compiled code is for -/

/-- The tag of closures of the function at a position. -/
def jClo (fl : List Nat) (ops : List BOp) (i : Nat) : Nat :=
  (match ops[i]? with
  | some (.label l) => (fnIndex l fl).getD 0
  | _ => 0) + fnTag

def jlp (ops : List BOp) (a : Asm) (fns : List (List BOp)) (D : Nat) : LP :=
  ⟨ops, a.link, fns, D, skip a.ops, jClo (fnLabels ops []) ops, fun r => .obj retTag [.int r], jmStep a.entries a.link.consts a.ops⟩

/-- What assembling guarantees. -/
structure Assembled (ops : List BOp) (a : Asm) : Prop where
  at_ : ∀ (i : Nat) o, ops[i]? = some o → ∃ j, a.ops[i]? = some j ∧ Resolved (fnLabels ops []) a.link o j
  lbl : ∀ (i : Nat) l, ops[i]? = some (.label l) → labelPos l a.ops = some i
  ent : ∀ (i : Nat) l, (fnLabels ops [])[i]? = some l → a.entries[i]? = labelPos l a.ops
  len : a.ops.length = ops.length

theorem assembled {ops : List BOp} {a : Asm} (h : assemble ops = some a) (hl : ∀ l, ops.count (.label l) ≤ 1) : Assembled ops a := by
  obtain ⟨r, h1, h⟩ := Option.bind_eq_some_iff.1 h
  obtain ⟨es, h2, rfl⟩ := Option.map_eq_some_iff.1 h
  obtain ⟨_, g1, g2⟩ := resolveOps_inv h1
  refine ⟨g2, fun i l hi => ?_, fun i l hi => allSome_get h2 i l hi, g1⟩
  obtain ⟨j, hj, e⟩ := g2 i _ hi
  cases e
  obtain ⟨k, hk⟩ := labelPos_isSome hj
  have hk' := labelPos_some hk
  have hlt := (List.getElem?_eq_some_iff.1 hk').1
  obtain ⟨jo, q1, q2⟩ := g2 k _ (List.getElem?_eq_getElem (by omega))
  rw [hk'] at q1
  cases q1
  have e : ops[k]'(by omega) = .label l := by
    generalize ops[k]'(by omega) = o at q2
    cases o <;> simp only [Resolved, reduceCtorEq, false_and, exists_false, JOp.label.injEq] at q2
    rw [q2]
  rw [hk, count_unique (i := k) (hl l) (by rw [List.getElem?_eq_getElem (by omega), e]) hi]

section
variable {ops : List BOp} {a : Asm} (ha : Assembled ops a) {i : Nat} {T : List TVal}
include ha

theorem Assembled.loud {o : BOp} (h : ops[i]? = some o) (hs : o.silent = false) : ∃ j, a.ops[i]? = some j ∧ Resolved (fnLabels ops []) a.link o j ∧ skip a.ops i = i := by
  obtain ⟨j, h1, h2⟩ := ha.at_ i o h
  refine ⟨j, h1, h2, ?_⟩
  have hj : j.silent = false := by
    cases o with
    | enter k u => cases h2; cases k <;> first | rfl | exact hs
    | label l => cases hs
    | construct | closure | branch | pushStr => obtain ⟨_, rfl, _⟩ := h2; rfl
    | _ => cases h2; rfl
  rw [skip_at h1, hj]; rfl

theorem Assembled.silent {o : BOp} (h : ops[i]? = some o) (hs : o.silent = true) : skip a.ops (i + 1) = skip a.ops i := by
  obtain ⟨j, h1, h2⟩ := ha.at_ i o h
  have hj : j.silent = true := by
    cases o with
    | enter k u => cases h2; cases k <;> first | rfl | exact hs
    | label l => cases h2; rfl
    | _ => cases hs
  rw [skip_at h1, hj]; rfl

theorem jClo_eq {l j : Nat} (h : ops[i]? = some (.label l)) (hj : fnIndex l (fnLabels ops []) = some j) : jClo (fnLabels ops []) ops i = j + fnTag := by
  rw [jClo, h]
  simp only [hj, Option.getD_some]

end

theorem fnLabels_keep {l : Nat} : ∀ {ops : List BOp} {ls : List Nat}, l ∈ ls → l ∈ fnLabels ops ls
  | [], _, h => h
  | o :: ops, ls, h => by
    cases o with
    | closure l n =>
      rw [fnLabels]
      refine fnLabels_keep ?_
      split
      · exact h
      · exact List.mem_append_left _ h
    | _ =>
      rw [fnLabels]
      · exact fnLabels_keep h
      · intro l n e; cases e

theorem fnLabels_mem {l n : Nat} : ∀ {ops : List BOp} {ls : List Nat} {i : Nat}, ops[i]? = some (.closure l n) → l ∈ fnLabels ops ls
  | o :: ops, ls, 0, h => by
    cases h
    rw [fnLabels]
    refine fnLabels_keep ?_
    split
    · assumption
    · simp
  | o :: ops, ls, i + 1, h => by
    rw [List.getElem?_cons_succ] at h
    cases o with
    | closure l n =>
      rw [fnLabels]
      exact fnLabels_mem h
    | _ =>
      rw [fnLabels]
      · exact fnLabels_mem h
      · intro l n e; cases e

theorem fnIndex_some {l : Nat} : ∀ {ls : List Nat}, l ∈ ls → ∃ i, fnIndex l ls = some i
  | a :: ls, h => by
    rw [fnIndex]
    split
    · exact ⟨0, rfl⟩
    · rename_i e
      obtain ⟨i, hi⟩ := fnIndex_some (ls := ls) (by
        rcases List.mem_cons.1 h with h | h
        · exact absurd h.symm e
        · exact h)
      exact ⟨i + 1, by rw [hi]; rfl⟩

theorem notRet_plain {v : TVal} (h : Core.Bc.plain v) : notRet v = true := by
  cases v <;> first | rfl | exact decide_eq_true h

theorem all_notRet {vs : List TVal} (h : ∀ v ∈ vs, Core.Bc.plain v) : vs.all notRet = true :=
  List.all_eq_true.2 fun v hv => notRet_plain (h v hv)

/-- **What the operations mean for values is what the compiler assumes.** -/
theorem jlp_ok {ops : List BOp} {a : Asm} (ha : Assembled ops a) (hs : ops.length < tagSize) (hc : a.link.ctors.length ≤ tagSize) {fns : List (List BOp)} {D : Nat}
    (hf : ∀ f ∈ fns, ∃ i, ∀ (j : Nat) o, f[j]? = some o → ops[i + j]? = some o) : (jlp ops a fns D).OK := by
  have hfl : ∀ {l i : Nat}, fnIndex l (fnLabels ops []) = some i → i < tagSize := fun {l i} h => by
    have h1 := (List.getElem?_eq_some_iff.1 (fnIndex_get h)).1
    have h2 := fnLabels_length ops []
    simp only [List.length_nil] at h2
    omega
  have hfn : ∀ {i : Nat}, (jlp ops a fns D).isFn i → ∃ l j, ops[i]? = some (.label l) ∧ fnIndex l (fnLabels ops []) = some j ∧ jClo (fnLabels ops []) ops i = j + fnTag := by
    rintro i ⟨p, l, n, h1, h2⟩
    obtain ⟨j, hj⟩ := fnIndex_some (fnLabels_mem (ls := []) h1)
    exact ⟨l, j, h2, hj, jClo_eq ha h2 hj⟩
  have htag : ∀ {c : Name} {tag : Nat}, HasTag a.link c tag → tag < 2 ^ 64 := by
    rintro c tag ⟨i, h1, rfl⟩
    have hi := (List.getElem?_eq_some_iff.1 (Core.indexOf_get h1)).1
    have e := Core.Bc.objTag_div (a := i) (by omega)
    rw [tagSize] at e
    omega
  have hnat : ∀ {n : Nat}, n < 2 ^ 64 → (UInt64.ofNat n).toNat = n := fun {n} h => by
    rw [UInt64.toNat_ofNat']
    exact Nat.mod_eq_of_lt h
  constructor
  case fn => exact hf
  case ctors => exact hc
  case addr_lt =>
    intro i
    have := skip_le a.ops i
    rw [ha.len] at this
    exact Nat.lt_of_le_of_lt this hs
  case clo_div =>
    intro i hi
    obtain ⟨l, j, h1, h2, h3⟩ := hfn hi
    have := hfl h2
    show jClo _ _ _ / _ = 4
    rw [h3]
    simp only [tagSize, fnTag] at this ⊢
    omega
  case silent => exact fun h hs => ha.silent h hs
  case step_ret =>
    intro i p c v cs ps B r f h hcl hpl
    obtain ⟨j, h1, h2, h3⟩ := ha.loud h rfl
    cases h2
    subst hcl; subst hpl
    show jmStep _ _ _ ⟨skip a.ops i, _⟩ = _
    rw [h3, jmStep]
    simp only [h1, jlp, List.drop_left, List.length_append, Nat.le_add_right, and_self, if_true]
  case step_call =>
    intro i T j fs h hj
    obtain ⟨jo, h1, h2, h3⟩ := ha.loud h rfl
    cases h2
    obtain ⟨l, k, q1, q2, q3⟩ := hfn hj
    have hk := hfl q2
    have hent := ha.ent k l (fnIndex_get q2)
    rw [ha.lbl j l q1] at hent
    show jmStep _ _ _ ⟨skip a.ops i, _⟩ = .next ⟨skip a.ops j, .obj retTag [.int (UInt64.ofNat (skip a.ops (i + 1)))] :: .obj (jClo _ _ _) fs :: T⟩
    rw [h3, jmStep]
    have e1 : (k + fnTag) % tagSize = k := by simp only [tagSize, fnTag] at hk ⊢; omega
    have e2 : k + fnTag < 2 ^ 64 := by simp only [tagSize, fnTag] at hk ⊢; omega
    simp only [h1, jlp, q3, e1, e2, hent, if_true]
  case steps_enter =>
    intro i T n u r f tag fs h hf hp hn
    cases n with
    | zero =>
      rw [List.length_eq_zero_iff] at hn
      subst hn
      refine ⟨0, ?_⟩
      show (⟨skip a.ops i, _⟩ : VM) = ⟨skip a.ops (i + 1), _⟩
      rw [ha.silent h rfl]; rfl
    | succ n =>
      subst hf
      obtain ⟨jo, h1, h2, h3⟩ := ha.loud h rfl
      cases h2
      refine ⟨1, .one ?_⟩
      have hp' : tag < 2 ^ 64 := hp
      show jmStep _ _ _ ⟨skip a.ops i, _⟩ = .next ⟨skip a.ops (i + 1), _⟩
      rw [h3, jmStep]
      simp only [h1, hp', hn, and_self, if_true]
  case step_construct =>
    intro i T c n h hn hv
    obtain ⟨jo, h1, h2, h3⟩ := ha.loud h rfl
    obtain ⟨tag, rfl, ht⟩ := h2
    refine ⟨tag, ht, ?_⟩
    show jmStep _ _ _ ⟨skip a.ops i, _⟩ = .next ⟨skip a.ops (i + 1), _⟩
    rw [h3, jmStep]
    simp only [h1, hn, all_notRet hv, and_self, if_true, hnat (htag ht)]
  case step_closure =>
    intro i T l n j h hl hn hv
    obtain ⟨jo, h1, h2, h3⟩ := ha.loud h rfl
    obtain ⟨k, rfl, hk⟩ := h2
    have hk' := hfl hk
    have e2 : k + fnTag < 2 ^ 64 := by simp only [tagSize, fnTag] at hk' ⊢; omega
    show jmStep _ _ _ ⟨skip a.ops i, _⟩ = .next ⟨skip a.ops (i + 1), .obj (jClo _ _ _) _ :: _⟩
    rw [h3, jmStep, jClo_eq ha hl hk]
    simp only [h1, hn, all_notRet hv, and_self, if_true, hnat e2]
  case step_branch =>
    intro i T t c k l j tag fs h hct ht hk hl
    obtain ⟨jo, h1, h2, h3⟩ := ha.loud h rfl
    obtain ⟨t', rfl, hrt⟩ := h2
    have hfb : ∀ {t t'}, ResolvedTable a.link t t' → Core.Bc.tableFind c t = some (l, k) → findBranch tag t' = some (k, l) := by
      intro t t' hr
      induction hr with
      | nil => intro h; cases h
      | @cons c' l' k' tag' t t' g1 g2 ih =>
        intro h
        rw [Core.Bc.tableFind] at h
        rw [findBranch, hnat (htag g1)]
        split at h
        · rename_i e
          cases h
          rw [if_pos (Core.Bc.HasTag.fn' g1 hct e)]
        · rename_i e
          rw [if_neg (fun he => e (Core.Bc.HasTag.inj' hc (by rw [← he]; exact g1) hct)), ih h]
    show jmStep _ _ _ ⟨skip a.ops i, _⟩ = .next ⟨skip a.ops j, _⟩
    rw [h3, jmStep]
    simp only [h1, hfb hrt ht, htag hct, hk, and_self, if_true, ha.lbl j l hl]
  case step_pushStr =>
    intro i T x h
    obtain ⟨jo, h1, h2, h3⟩ := ha.loud h rfl
    obtain ⟨k, rfl, hk⟩ := h2
    show jmStep _ _ _ ⟨skip a.ops i, _⟩ = .next ⟨skip a.ops (i + 1), _⟩
    rw [h3, jmStep]
    simp only [h1, hk]
  case step_pick =>
    intro i T d v h hv
    obtain ⟨jo, h1, h2, h3⟩ := ha.loud h rfl
    cases h2
    show jmStep _ _ _ ⟨skip a.ops i, _⟩ = .next ⟨skip a.ops (i + 1), _⟩
    rw [h3, jmStep]
    simp only [h1, hv]
  case step_set =>
    intro i T d v h hv
    obtain ⟨jo, h1, h2, h3⟩ := ha.loud h rfl
    cases h2
    show jmStep _ _ _ ⟨skip a.ops i, _⟩ = .next ⟨skip a.ops (i + 1), _⟩
    rw [h3, jmStep]
    simp only [h1, hv, if_true]
  case step_popN =>
    intro i T n h hv
    obtain ⟨jo, h1, h2, h3⟩ := ha.loud h rfl
    cases h2
    show jmStep _ _ _ ⟨skip a.ops i, _⟩ = .next ⟨skip a.ops (i + 1), _⟩
    rw [h3, jmStep]
    simp only [h1, hv, if_true]
  case step_jump =>
    intro i T l j h hl
    obtain ⟨jo, h1, h2, h3⟩ := ha.loud h rfl
    cases h2
    show jmStep _ _ _ ⟨skip a.ops i, _⟩ = .next ⟨skip a.ops j, _⟩
    rw [h3, jmStep]
    simp only [h1, ha.lbl j l hl]
  case step_jumpIfFalse_false =>
    intro i T l j h hl
    obtain ⟨jo, h1, h2, h3⟩ := ha.loud h rfl
    cases h2
    show jmStep _ _ _ ⟨skip a.ops i, _⟩ = .next ⟨skip a.ops j, _⟩
    rw [h3, jmStep]
    simp [h1, ha.lbl j l hl]
  case step_intr =>
    intro i T n T' h ht
    obtain ⟨jo, h1, h2, h3⟩ := ha.loud h rfl
    cases h2
    show jmStep _ _ _ ⟨skip a.ops i, _⟩ = .next ⟨skip a.ops (i + 1), _⟩
    rw [h3, jmStep]
    simp only [h1, ht]
  case step_trap =>
    intro i T m h
    obtain ⟨jo, h1, h2, h3⟩ := ha.loud h rfl
    cases h2
    show jmStep _ _ _ ⟨skip a.ops i, _⟩ = _
    rw [h3, jmStep]
    simp only [h1]
  case step_exit =>
    intro i T h
    obtain ⟨jo, h1, h2, h3⟩ := ha.loud h rfl
    cases h2
    show jmStep _ _ _ ⟨skip a.ops i, _⟩ = _
    rw [h3, jmStep]
    simp only [h1]
  all_goals
    intros
    rename_i h
    obtain ⟨jo, h1, h2, h3⟩ := ha.loud h rfl
    cases h2
    show jmStep _ _ _ ⟨skip a.ops _, _⟩ = .next ⟨skip a.ops (_ + 1), _⟩
    rw [h3, jmStep]
    simp only [h1, if_true]

end Tic.Jit
