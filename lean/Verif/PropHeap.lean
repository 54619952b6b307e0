import Verif.HeapAlloc
import Verif.VmAlloc
/-
C01-C04: the garbage-collected heap.

Specification vocabulary: `readField`/`follow` navigate from a pointer along
field indices, `describe` is what a client can see of the value it arrives at,
`Hist` is the client's view of a history of heap operations.
-/
namespace Tic.Heap

/-! ### Specification -/

/-- Field `i` of the object at `a`, as `obj_with_fields` returns it. -/
def readField (h : Heap) (a i : Nat) : Option Value := (objFields h a).2[i]?

/-- Follow a path of field indices from a value. -/
def follow (h : Heap) : Value → List Nat → Option Value
  | v, [] => some v
  | .int _, _ :: _ => none
  | .ptr a, i :: p => (readField h a i).bind fun v => follow h v p

/-- What can be seen of a value without following pointers. -/
inductive Seen
  | int (x : UInt64)
  /-- tag, for each field whether it is a pointer, and the raw bytes when no field is -/
  | obj (tag : Nat) (fields : List Bool) (bytes : List UInt8)
deriving DecidableEq, Repr

/-- Everything visible at a value. -/
def describe (h : Heap) : Value → Seen
  | .int x => .int x
  | .ptr a =>
    let fields := (objFields h a).2.map Value.isPtr
    .obj (objFields h a).1 fields (if fields.any id then [] else (objBytes h a).2)

/-- Client histories: which heaps, together with the references a client may
use, arise from `Heap::new` by successful heap operations.  A collection
invalidates all references except the updated roots. -/
inductive Hist : Heap → List Nat → Prop
  | new : Hist Heap.new []
  | object {h refs tag vals h' a} : Hist h refs → tag < 2 ^ 64 → vals.length ≤ 64 →
      (∀ p, Value.ptr p ∈ vals → p ∈ refs) → allocObject h tag vals = some (h', a) → Hist h' (a :: refs)
  | bytes {h refs tag bs h' a} : Hist h refs → tag < 2 ^ 64 →
      allocBytes h tag bs = some (h', a) → Hist h' (a :: refs)
  | read {h refs a i p} : Hist h refs → a ∈ refs → readField h a i = some (.ptr p) → Hist h (p :: refs)
  | collect {h refs roots e h' roots'} : Hist h refs → (∀ r ∈ roots, r ∈ refs) →
      collectAndGrow h roots e = some (h', roots') → Hist h' roots'

/-! ### Lemmas -/

theorem readField_eq {h : Heap} {a i : Nat} : readField h a i =
    if i < nfields h.mem a then
      some (if (ptrsAt h.mem a).testBit i then .ptr (fieldAt h.mem a i) else .int (UInt64.ofNat (fieldAt h.mem a i)))
    else none := by
  unfold readField objFields
  by_cases hi : i < nfields h.mem a
  · simp [hi]
  · simp [hi]

theorem Hist.wf {h : Heap} {refs : List Nat} (hh : Hist h refs) : ∃ addrs, WF h addrs ∧ ∀ r ∈ refs, r ∈ addrs := by
  induction hh with
  | new => exact ⟨[], WF.new, by simp⟩
  | object _ htag hn hv e ih =>
    obtain ⟨addrs, hw, hr⟩ := ih
    have hA := allocObject_some hw htag hn (fun p hp => hr p (hv p hp)) e
    exact ⟨_, hA.wf, fun r hr' => by
      rcases List.mem_cons.1 hr' with rfl | h
      · simp
      · exact List.mem_cons_of_mem _ (hr r h)⟩
  | bytes _ htag e ih =>
    obtain ⟨addrs, hw, hr⟩ := ih
    have hA := allocBytes_some hw htag e
    exact ⟨_, hA.wf, fun r hr' => by
      rcases List.mem_cons.1 hr' with rfl | h
      · simp
      · exact List.mem_cons_of_mem _ (hr r h)⟩
  | @read h refs a i p _ ha e ih =>
    obtain ⟨addrs, hw, hr⟩ := ih
    refine ⟨addrs, hw, fun r hr' => ?_⟩
    rcases List.mem_cons.1 hr' with rfl | h
    · rw [readField_eq] at e
      split at e
      · split at e
        · rename_i hb
          simp only [Option.some.injEq, Value.ptr.injEq] at e
          have := (hw.ok.bits a (hr a ha) i hb).2.2
          rwa [e] at this
        · simp at e
      · cases e
    · exact hr r h
  | @collect h refs roots e h' roots' _ hsub ec ih =>
    obtain ⟨addrs, hw, hr⟩ := ih
    obtain ⟨φ, hC⟩ := collectInner_some hw (fun r hrr => hr r (hsub r hrr)) ec
    refine ⟨_, hC.wf, fun r hrr => ?_⟩
    rw [hC.roots] at hrr
    obtain ⟨x, hx, rfl⟩ := List.mem_map.1 hrr
    exact List.mem_map.2 ⟨x, (hC.reach x).2 (.base hx), rfl⟩

/-- The image of a value under the move. -/
def Value.move (φ : Nat → Nat) : Value → Value
  | .int x => .int x
  | .ptr a => .ptr (φ a)

/-- A value all of whose pointers are retained objects. -/
def Value.In (rs : List Nat) : Value → Prop
  | .int _ => True
  | .ptr a => a ∈ rs

theorem Collected.readField {h h' : Heap} {addrs roots roots' rs : List Nat} {e : Nat} {φ : Nat → Nat}
    (hC : Collected h addrs roots e h' roots' rs φ) {a : Nat} (ha : a ∈ rs) (i : Nat) :
    readField h' (φ a) i = (readField h a i).map (Value.move φ) ∧
      ∀ v, readField h a i = some v → v.In rs := by
  have hc := hC.copied a ha
  have hnf : nfields h'.mem (φ a) = nfields h.mem a := by unfold nfields; rw [hc.size]
  rw [readField_eq, readField_eq, hnf, hc.ptrs]
  by_cases hi : i < nfields h.mem a
  · rw [if_pos hi, if_pos hi, hc.field i hi]
    by_cases hb : (ptrsAt h.mem a).testBit i = true
    · rw [if_pos hb, if_pos hb, if_pos hb]
      refine ⟨rfl, fun v hv => ?_⟩
      simp only [Option.some.injEq] at hv
      subst hv
      exact (hC.reach _).2 (.step ((hC.reach a).1 ha) ⟨i, hb, rfl⟩)
    · rw [if_neg hb, if_neg hb, if_neg hb]
      refine ⟨rfl, fun v hv => ?_⟩
      simp only [Option.some.injEq] at hv
      subst hv
      trivial
  · rw [if_neg hi, if_neg hi]
    exact ⟨rfl, fun v hv => by cases hv⟩

theorem Collected.follow {h h' : Heap} {addrs roots roots' rs : List Nat} {e : Nat} {φ : Nat → Nat}
    (hC : Collected h addrs roots e h' roots' rs φ) (p : List Nat) :
    ∀ v : Value, v.In rs → Heap.follow h' (v.move φ) p = (Heap.follow h v p).map (Value.move φ) ∧
      ∀ w, Heap.follow h v p = some w → w.In rs := by
  induction p with
  | nil =>
    intro v hv
    refine ⟨rfl, fun w hw => ?_⟩
    simp only [Heap.follow, Option.some.injEq] at hw
    exact hw ▸ hv
  | cons i p ih =>
    intro v hv
    cases v with
    | int x => exact ⟨rfl, fun w hw => by cases hw⟩
    | ptr a =>
      have hr := hC.readField hv i
      simp only [Heap.follow, Value.move]
      rw [hr.1]
      cases hra : Heap.readField h a i with
      | none => exact ⟨rfl, fun w hw => by cases hw⟩
      | some u =>
        simp only [Option.map_some, Option.bind_some]
        exact ih u (hr.2 u hra)

theorem objFields_ptrs (h : Heap) (a : Nat) :
    (objFields h a).2.map Value.isPtr = (List.range (nfields h.mem a)).map fun i => (ptrsAt h.mem a).testBit i := by
  simp only [objFields, List.map_map]
  apply List.map_congr_left
  intro i _
  simp only [Function.comp]
  cases (ptrsAt h.mem a).testBit i <;> simp [Value.isPtr]

theorem Collected.describe {h h' : Heap} {addrs roots roots' rs : List Nat} {e : Nat} {φ : Nat → Nat}
    (hw : WF h addrs) (hC : Collected h addrs roots e h' roots' rs φ) (v : Value) (hv : v.In rs) :
    Heap.describe h' (v.move φ) = Heap.describe h v := by
  cases v with
  | int x => rfl
  | ptr a =>
    have hc := hC.copied a hv
    have hnf : nfields h'.mem (φ a) = nfields h.mem a := by unfold nfields; rw [hc.size]
    simp only [Heap.describe, Value.move]
    rw [objFields_ptrs, objFields_ptrs, hnf, hc.ptrs]
    have htag : (objFields h' (φ a)).1 = (objFields h a).1 := hc.tag
    rw [htag]
    by_cases hany : ((List.range (nfields h.mem a)).map fun i => (ptrsAt h.mem a).testBit i).any id = true
    · rw [if_pos hany, if_pos hany]
    · rw [if_neg hany, if_neg hany]
      have h0 : ptrsAt h.mem a = 0 := by
        apply Nat.eq_of_testBit_eq
        intro i
        rw [Nat.zero_testBit]
        apply Bool.eq_false_iff.2
        intro hb
        apply hany
        have := (hw.ok.bits a (hC.sub.subset hv) i hb).1
        simp only [List.any_map, List.any_eq_true, List.mem_range]
        exact ⟨i, this, hb⟩
      congr 1
      simp only [objBytes, hc.size]
      apply List.map_congr_left
      intro i hi
      simp only [List.mem_range] at hi
      exact hc.body h0 i (by omega)

theorem move_inj {rs : List Nat} {φ : Nat → Nat} (hinj : ∀ a ∈ rs, ∀ b ∈ rs, φ a = φ b → a = b)
    {v w : Value} (hv : v.In rs) (hw : w.In rs) (he : v.move φ = w.move φ) : v = w := by
  cases v <;> cases w <;> simp only [Value.move, Value.int.injEq, Value.ptr.injEq, reduceCtorEq] at he
  · rw [he]
  · rw [hinj _ hv _ hw he]

/-! ### C01 -/

/-- **C01.** Garbage collection preserves every reachable value.  Let a client
reach heap `h` with references `refs` by any history, and collect with any roots
among its references.  Then the roots are updated one by one, and following any
path of field indices from a root leads, after the collection, to a value that
looks exactly as the one reached before (same integer; or same tag, same
pointer/scalar layout and, for pointer-free objects, same bytes; or the path
does not exist in both).  Two paths lead to the same object after the collection
iff they did before, so sharing is preserved as well. -/
theorem gc_preserves_reachable {h h' : Heap} {refs roots roots' : List Nat} {ensureFree : Nat}
    (hh : Hist h refs) (hr : ∀ r ∈ roots, r ∈ refs)
    (e : collectAndGrow h roots ensureFree = some (h', roots')) :
    roots'.length = roots.length ∧
    (∀ k, k < roots.length → ∀ path : List Nat,
      (follow h' (.ptr (roots'.getD k 0)) path).map (describe h') =
        (follow h (.ptr (roots.getD k 0)) path).map (describe h)) ∧
    (∀ j k, j < roots.length → k < roots.length → ∀ p q : List Nat,
      follow h (.ptr (roots.getD j 0)) p = follow h (.ptr (roots.getD k 0)) q ↔
      follow h' (.ptr (roots'.getD j 0)) p = follow h' (.ptr (roots'.getD k 0)) q) := by
  obtain ⟨addrs, hw, href⟩ := hh.wf
  obtain ⟨φ, hC⟩ := collectInner_some hw (fun r hrr => href r (hr r hrr)) e
  have hroot : ∀ k, k < roots.length → roots.getD k 0 ∈ reachable h addrs roots ∧ roots'.getD k 0 = φ (roots.getD k 0) := by
    intro k hk
    have e1 : roots.getD k 0 = roots[k] := by simp [List.getD, hk]
    refine ⟨(hC.reach _).2 (.base ?_), ?_⟩
    · rw [e1]; exact List.getElem_mem hk
    · rw [hC.roots, e1]; simp [List.getD, hk]
  refine ⟨by rw [hC.roots]; simp, ?_, ?_⟩
  · intro k hk path
    obtain ⟨hin, hk'⟩ := hroot k hk
    have hf := hC.follow path (.ptr (roots.getD k 0)) hin
    rw [hk']
    rw [show follow h' (.ptr (φ (roots.getD k 0))) path = _ from hf.1]
    cases hfo : follow h (.ptr (roots.getD k 0)) path with
    | none => rfl
    | some w =>
      simp only [Option.map_some]
      rw [hC.describe hw w (hf.2 w hfo)]
  · intro j k hj hk p q
    obtain ⟨hinj, hj'⟩ := hroot j hj
    obtain ⟨hink, hk'⟩ := hroot k hk
    have hfj := hC.follow p (.ptr (roots.getD j 0)) hinj
    have hfk := hC.follow q (.ptr (roots.getD k 0)) hink
    rw [hj', hk', show follow h' (.ptr (φ (roots.getD j 0))) p = _ from hfj.1,
      show follow h' (.ptr (φ (roots.getD k 0))) q = _ from hfk.1]
    constructor
    · intro he; rw [he]
    · intro he
      cases hfo : follow h (.ptr (roots.getD j 0)) p with
      | none =>
        rw [hfo] at he
        cases hfo2 : follow h (.ptr (roots.getD k 0)) q with
        | none => rfl
        | some w => rw [hfo2] at he; simp at he
      | some v =>
        rw [hfo] at he
        cases hfo2 : follow h (.ptr (roots.getD k 0)) q with
        | none => rw [hfo2] at he; simp at he
        | some w =>
          rw [hfo2] at he
          simp only [Option.map_some, Option.some.injEq] at he
          rw [move_inj hC.inj (hfj.2 v hfo) (hfk.2 w hfo2) he]

/-! ### C02 -/

/-- **C02.** At every point of every history the heap is exactly tiled by
objects (`Tiled`: consecutive objects of at least 24 bytes, multiples of 8, from
the bump pointer to the capacity), every pointer field of every object points
at the start of an object at a strictly higher address, every reference held by
the client is the start of an object, no two objects overlap, and
`allocated + free = capacity`. -/
theorem heap_integrity {h : Heap} {refs : List Nat} (hh : Hist h refs) :
    ∃ objs : List Nat, Tiled h.mem h.capacity h.bump objs ∧
      (∀ a ∈ objs, ∀ i p, readField h a i = some (.ptr p) → a < p ∧ p ∈ objs) ∧
      (∀ r ∈ refs, r ∈ objs) ∧
      (∀ a ∈ objs, ∀ b ∈ objs, a ≠ b → a + sizeAt h.mem a ≤ b ∨ b + sizeAt h.mem b ≤ a) ∧
      h.allocated = (objs.map (sizeAt h.mem)).sum ∧
      h.freeSpace + h.allocated = h.capacity := by
  obtain ⟨addrs, hw, href⟩ := hh.wf
  refine ⟨addrs, hw.tiled, ?_, href, hw.tiled.fits.disjoint, ?_, ?_⟩
  · intro a ha i p e
    rw [readField_eq] at e
    split at e
    · split at e
      · rename_i hb
        simp only [Option.some.injEq, Value.ptr.injEq] at e
        have := hw.ok.bits a ha i hb
        rw [e] at this
        exact this.2
      · simp at e
    · cases e
  · have := hw.tiled.sum
    unfold Heap.allocated; omega
  · have := hw.tiled.le_len
    unfold Heap.freeSpace Heap.capacity Heap.allocated; omega

/-- **C02, contents.** A freshly allocated object reads back exactly the tag and
the fields it was built from, and allocation does not change any existing
object. -/
theorem alloc_reads_back {h h' : Heap} {refs : List Nat} {tag a : Nat} {vals : List Value}
    (hh : Hist h refs) (htag : tag < 2 ^ 64) (hn : vals.length ≤ 64)
    (hv : ∀ p, Value.ptr p ∈ vals → p ∈ refs) (e : allocObject h tag vals = some (h', a)) :
    objFields h' a = (tag, vals) ∧ a ∉ refs ∧
      ∀ r ∈ refs, objFields h' r = objFields h r ∧ objBytes h' r = objBytes h r := by
  obtain ⟨addrs, hw, href⟩ := hh.wf
  have hA := allocObject_some hw htag hn (fun p hp => href p (hv p hp)) e
  have hnf : nfields h'.mem a = vals.length := by unfold nfields; rw [hA.size]; omega
  refine ⟨?_, ?_, ?_⟩
  · simp only [objFields, hA.tag, hnf, Prod.mk.injEq, true_and]
    apply List.ext_getElem (by simp)
    intro i h1 h2
    simp only [List.getElem_map, List.getElem_range]
    have hget : vals.getD i (.int 0) = vals[i] := by simp [List.getD, h2]
    rw [hA.bits i, hA.field i h2, hget]
    cases vals[i] with
    | int x => simp [Value.isPtr, Value.word]
    | ptr p => simp [Value.isPtr, Value.word]
  · intro ha
    have h1 := hw.tiled.ge a (href a ha)
    have := hA.addr
    omega
  · intro r hr
    have hge := hw.tiled.ge r (href r hr)
    have hrd : ∀ o n, readLE h'.mem (r + o) n = readLE h.mem (r + o) n := fun o n =>
      readLE_congr (fun x h1 h2 => hA.old x (by omega))
    have hsz : sizeAt h'.mem r = sizeAt h.mem r := hrd 0 4
    have hpt : ptrsAt h'.mem r = ptrsAt h.mem r := hrd 8 8
    have htg : tagAt h'.mem r = tagAt h.mem r := hrd 16 8
    have hnf : nfields h'.mem r = nfields h.mem r := by unfold nfields; rw [hsz]
    have hfl : ∀ i, fieldAt h'.mem r i = fieldAt h.mem r i := fun i => by
      have := hrd (24 + 8 * i) 8
      simpa [fieldAt, Nat.add_assoc] using this
    constructor
    · simp only [objFields, hnf, hpt, htg, hfl]
    · simp only [objBytes, htg, hsz, Prod.mk.injEq, true_and]
      apply List.map_congr_left
      intro i _
      exact hA.old _ (by omega)

/-- **C02, contents of strings.** A freshly allocated byte object has the tag it
was given and its bytes followed by fewer than eight padding bytes. -/
theorem allocBytes_reads_back {h h' : Heap} {refs : List Nat} {tag a : Nat} {bs : List UInt8}
    (hh : Hist h refs) (htag : tag < 2 ^ 64) (e : allocBytes h tag bs = some (h', a)) :
    (objBytes h' a).1 = tag ∧ (objBytes h' a).2.take bs.length = bs ∧
      (objBytes h' a).2.length < bs.length + 8 ∧ a ∉ refs := by
  obtain ⟨addrs, hw, href⟩ := hh.wf
  have hA := allocBytes_some hw htag e
  have hru := roundUp_ge bs.length
  refine ⟨hA.tag, ?_, ?_, ?_⟩
  · apply List.ext_getElem
    · simp [objBytes, hA.size]; omega
    · intro i h1 h2
      simp only [objBytes, List.getElem_take, List.getElem_map, List.getElem_range]
      rw [hA.bytes i h2]
      simp [List.getD, h2]
  · simp [objBytes, hA.size]; omega
  · intro ha
    have h1 := hw.tiled.ge a (href a ha)
    have := hA.addr
    omega

/-! ### C03 -/

theorem reach_iff_follow {h : Heap} {addrs roots : List Nat} (hw : WF h addrs) (hr : ∀ r ∈ roots, r ∈ addrs) (a : Nat) :
    Reach h.mem (· ∈ roots) a ↔ ∃ r ∈ roots, ∃ p, follow h (.ptr r) p = some (.ptr a) := by
  constructor
  · intro hR
    induction hR with
    | @base a ha => exact ⟨a, ha, [], rfl⟩
    | @step a b hR hp ih =>
      obtain ⟨r, hrr, p, hf⟩ := ih
      obtain ⟨i, hb, he⟩ := hp
      have hi := (hw.ok.bits a (hR.in_addrs hw.ok hr) i hb).1
      have hstep : readField h a i = some (.ptr b) := by
        rw [readField_eq, if_pos hi, if_pos hb, he]
      refine ⟨r, hrr, p ++ [i], ?_⟩
      have : ∀ (p : List Nat) (v : Value), follow h v p = some (.ptr a) → follow h v (p ++ [i]) = some (.ptr b) := by
        intro p
        induction p with
        | nil =>
          intro v hv
          simp only [follow, Option.some.injEq] at hv
          subst hv
          simp [follow, hstep]
        | cons j p ih =>
          intro v hv
          cases v with
          | int x => cases hv
          | ptr c =>
            simp only [follow, List.cons_append] at hv ⊢
            cases hrf : readField h c j with
            | none => rw [hrf] at hv; cases hv
            | some u => rw [hrf] at hv; exact ih u hv
      exact this p _ hf
  · rintro ⟨r, hrr, p, hf⟩
    have : ∀ (p : List Nat) (v : Value) (c : Nat), v = .ptr c → Reach h.mem (· ∈ roots) c →
        follow h v p = some (.ptr a) → Reach h.mem (· ∈ roots) a := by
      intro p
      induction p with
      | nil =>
        intro v c hvc hR hf
        simp only [follow, Option.some.injEq, hvc, Value.ptr.injEq] at hf
        exact hf ▸ hR
      | cons j p ih =>
        intro v c hvc hR hf
        subst hvc
        simp only [follow] at hf
        cases hrf : readField h c j with
        | none => rw [hrf] at hf; cases hf
        | some u =>
          rw [hrf] at hf
          simp only [Option.bind_some] at hf
          rw [readField_eq] at hrf
          split at hrf
          · split at hrf
            · rename_i hb
              simp only [Option.some.injEq] at hrf
              exact ih u _ hrf.symm (.step hR ⟨j, hb, rfl⟩) hf
            · simp only [Option.some.injEq] at hrf
              subst hrf
              cases p with
              | nil => simp [follow] at hf
              | cons k p => simp [follow] at hf
          · cases hrf
    exact this p _ r rfl (.base hrr) hf

/-- **C03.** After a collection the allocated bytes are exactly the total size of
the objects that were reachable from the roots; every object left in the heap
is reachable from the updated roots; the capacity has not shrunk, at least
`ensure_free` bytes and at least three quarters of the capacity are free. -/
theorem collection_reclaims {h h' : Heap} {refs roots roots' : List Nat} {ensureFree : Nat}
    (hh : Hist h refs) (hr : ∀ r ∈ roots, r ∈ refs)
    (e : collectAndGrow h roots ensureFree = some (h', roots')) :
    (∃ live : List Nat, live.Nodup ∧
      (∀ a, a ∈ live ↔ ∃ r ∈ roots, ∃ p, follow h (.ptr r) p = some (.ptr a)) ∧
      h'.allocated = (live.map (sizeAt h.mem)).sum) ∧
    (∀ objs, Tiled h'.mem h'.capacity h'.bump objs → ∀ a ∈ objs,
      ∃ r ∈ roots', ∃ p, follow h' (.ptr r) p = some (.ptr a)) ∧
    h.capacity ≤ h'.capacity ∧
    ensureFree ≤ h'.freeSpace ∧ 3 * h'.capacity ≤ 4 * h'.freeSpace := by
  obtain ⟨addrs, hw, href⟩ := hh.wf
  have hra : ∀ r ∈ roots, r ∈ addrs := fun r hrr => href r (hr r hrr)
  obtain ⟨φ, hC⟩ := collectInner_some hw hra e
  have halloc := hC.alloc
  have hlen := hC.len
  unfold minCap at hlen
  refine ⟨⟨reachable h addrs roots, ?_, ?_, ?_⟩, ?_, ?_, ?_, ?_⟩
  · exact hw.nodup.sublist hC.sub
  · intro a
    rw [hC.reach a, reach_iff_follow hw hra]
  · unfold Heap.allocated; omega
  · intro objs ht a ha
    have huniq : ∀ (l l' : List Nat) (s : Nat), Tiled h'.mem h'.len s l → Tiled h'.mem h'.len s l' → l = l' := by
      intro l
      induction l with
      | nil =>
        intro l' s h1 h2
        cases l' with
        | nil => rfl
        | cons y ys =>
          simp only [Tiled] at h1 h2
          omega
      | cons x xs ih =>
        intro l' s h1 h2
        cases l' with
        | nil => simp only [Tiled] at h1 h2; omega
        | cons y ys =>
          obtain ⟨h1a, h1b, -, h1c, h1d⟩ := h1
          obtain ⟨h2a, -, -, -, h2d⟩ := h2
          rw [h1a, h2a, ih ys _ h1d h2d]
    have hobj := huniq objs _ _ ht hC.wf.tiled
    rw [hobj] at ha
    obtain ⟨x, hx, rfl⟩ := List.mem_map.1 ha
    obtain ⟨r, hrr, p, hf⟩ := (reach_iff_follow hw hra x).1 ((hC.reach x).1 hx)
    refine ⟨φ r, by rw [hC.roots]; exact List.mem_map.2 ⟨r, hrr, rfl⟩, p, ?_⟩
    have := (hC.follow p (.ptr r) ((hC.reach r).2 (.base hrr))).1
    rw [show Value.move φ (.ptr r) = .ptr (φ r) from rfl] at this
    rw [this, hf]
    rfl
  · unfold Heap.capacity; omega
  · unfold Heap.freeSpace Heap.capacity Heap.allocated; omega
  · unfold Heap.freeSpace Heap.capacity Heap.allocated; omega

/-! ### Non-vacuity -/

theorem some_getD {α} {o : Option α} {d : α} (h : o.isSome = true) : o = some (o.getD d) := by
  cases o with
  | none => cases h
  | some x => rfl

/-- Demo: an integer object. -/
def demo1 : Heap × Nat := (allocObject Heap.new 5 [.int 3]).getD (Heap.new, 0)
/-- Demo: a pair pointing at it twice. -/
def demo2 : Heap × Nat := (allocObject demo1.1 6 [.ptr demo1.2, .ptr demo1.2]).getD (Heap.new, 0)
/-- Demo: a garbage object. -/
def demo3 : Heap × Nat := (allocObject demo2.1 7 [.int 9]).getD (Heap.new, 0)
/-- Demo: the collection. -/
def demo4 : Heap × List Nat := (collectAndGrow demo3.1 [demo2.2] 40).getD (Heap.new, [])

/-- A concrete client history: an integer object, a pair pointing at it twice, a
garbage object, and a collection with the pair as root. -/
theorem demo_history : ∃ h refs r, Hist h refs ∧ r ∈ refs ∧ (∃ g ∈ refs, g ≠ r) ∧
    ∃ h' roots', collectAndGrow h [r] 40 = some (h', roots') ∧
      follow h (.ptr r) [1, 0] = some (.int 3) ∧ h.allocated = 104 ∧ h'.allocated = 72 := by
  have h1 : Hist demo1.1 [demo1.2] := .object (tag := 5) (vals := [.int 3]) .new (by decide) (by decide) (by simp)
    (some_getD (d := (Heap.new, 0)) (by decide +kernel))
  have h2 : Hist demo2.1 [demo2.2, demo1.2] := .object (tag := 6) (vals := [.ptr demo1.2, .ptr demo1.2]) h1
    (by decide) (by simp) (by intro p hp; simpa using hp) (some_getD (d := (Heap.new, 0)) (by decide +kernel))
  have h3 : Hist demo3.1 [demo3.2, demo2.2, demo1.2] := .object (tag := 7) (vals := [.int 9]) h2
    (by decide) (by decide) (by simp) (some_getD (d := (Heap.new, 0)) (by decide +kernel))
  exact ⟨demo3.1, _, demo2.2, h3, by simp, ⟨demo3.2, by simp, by decide +kernel⟩, demo4.1, demo4.2,
    some_getD (d := (Heap.new, [])) (by decide +kernel), by decide +kernel, by decide +kernel, by decide +kernel⟩

end Tic.Heap
