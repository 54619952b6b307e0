/-
Model of the bytecode interpreter's garbage-collected heap,
`ticc-eval/src/heap.rs`.

Memory is byte addressed; headers and fields are read and written little endian
(the code reinterprets the bytes as `#[repr(C)]` structs of native endianness).
`Option.none` is a panic of the Rust code (slice out of range, integer overflow
in a debug build, explicit `panic!`).
-/
namespace Tic.Heap

/-- The bytes of the heap (`AlignedBytes`, `heap.rs:261-264`). -/
abbrev Mem := Nat → UInt8

/-- Read an `n`-byte little-endian integer. -/
def readLE (m : Mem) (a : Nat) : Nat → Nat
  | 0 => 0
  | n + 1 => (m a).toNat + 256 * readLE m (a + 1) n

/-- Write an `n`-byte little-endian integer. -/
def writeLE (m : Mem) (a n v : Nat) : Mem := fun x =>
  if a ≤ x ∧ x < a + n then UInt8.ofNat (v / 256 ^ (x - a)) else m x

/-- `Header::SIZE`, `heap.rs:253-258`. -/
def hdr : Nat := 24

/-- Header field `size` (`heap.rs:246`), total size of the object in bytes. -/
def sizeAt (m : Mem) (a : Nat) : Nat := readLE m a 4
/-- Header field `mark` (`heap.rs:247`). -/
def markAt (m : Mem) (a : Nat) : Nat := readLE m (a + 4) 4
/-- Header field `ptrs` (`heap.rs:248`), bit `i` says field `i` is a pointer. -/
def ptrsAt (m : Mem) (a : Nat) : Nat := readLE m (a + 8) 8
/-- Header field `tag` (`heap.rs:249`). -/
def tagAt (m : Mem) (a : Nat) : Nat := readLE m (a + 16) 8
/-- Field `i` of an object (`obj_fields`, `heap.rs:200-203`). -/
def fieldAt (m : Mem) (a i : Nat) : Nat := readLE m (a + 24 + 8 * i) 8
/-- Number of fields of an object: `bytes_to_words`, `heap.rs:206-210`. -/
def nfields (m : Mem) (a : Nat) : Nat := (sizeAt m a - 24) / 8

/-- `struct Heap`, `heap.rs:10-14`; `table`/`tableLen` are the vector `move_dst`. -/
structure Heap where
  mem : Mem
  len : Nat
  table : Nat → Nat
  tableLen : Nat
  bump : Nat

/-- `Heap::new`, `heap.rs:17-26`: 256 bytes, all free. -/
def Heap.new : Heap :=
  { mem := fun _ => 0, len := 256, table := fun _ => 2 ^ 64 - 1, tableLen := 256 / 24, bump := 256 }

/-- `round_up`, `heap.rs:218-220`. -/
def roundUp (bytes : Nat) : Nat := (bytes + 7) / 8 * 8

/-- `raw_alloc`, `heap.rs:45-61`.  The `u32` additions panic on overflow. -/
def rawAlloc (h : Heap) (tag bytes : Nat) : Option (Heap × Nat) :=
  if 2 ^ 32 ≤ bytes + 7 ∨ 2 ^ 32 ≤ 24 + roundUp bytes then none
  else
    let total := 24 + roundUp bytes
    if h.bump < total then none                       -- "not enough space left to allocate"
    else
      let a := h.bump - total
      let m := writeLE (writeLE (writeLE (writeLE h.mem a 4 total) (a + 4) 4 0) (a + 8) 8 0) (a + 16) 8 tag
      some ({ h with mem := m, bump := a }, a)

/-- A stack or field value, `heap.rs:4-8`. -/
inductive Value
  | int (x : UInt64)
  | ptr (a : Nat)
deriving DecidableEq, Repr

/-- `ObjAlloc::put_ptr` / `put_int`, `heap.rs:229-236`, on the object at `a`. -/
def put (m : Mem) (a idx : Nat) : Value → Option Mem
  | .int x => if idx < nfields m a then some (writeLE m (a + 24 + 8 * idx) 8 x.toNat) else none
  | .ptr p =>
    if idx < nfields m a ∧ idx < 64 then
      let m := writeLE m (a + 24 + 8 * idx) 8 p
      some (writeLE m (a + 8) 8 (ptrsAt m a ||| 2 ^ idx))
    else none

/-- The fields of a freshly allocated object are written from the last to the
first (`Op::Construct`, `bytecode.rs:263-271`); `vals` are the field values. -/
def putAll (m : Mem) (a : Nat) : (idx : Nat) → List Value → Option Mem
  | _, [] => some m
  | idx, v :: vs => (putAll m a (idx + 1) vs).bind fun m => put m a idx v

/-- `alloc_object(tag, fields)` followed by writing all fields
(`heap.rs:36-43`, `bytecode.rs:262-271`). -/
def allocObject (h : Heap) (tag : Nat) (vals : List Value) : Option (Heap × Nat) :=
  if 2 ^ 32 ≤ vals.length * 8 then none
  else (rawAlloc h tag (vals.length * 8)).bind fun (h, a) =>
    (putAll h.mem a 0 vals).map fun m => ({ h with mem := m }, a)

/-- Writing the bytes of a string into its object (`bytecode.rs:331`). -/
def writeBytes (m : Mem) (a : Nat) (bs : List UInt8) : Mem := fun x =>
  if a ≤ x ∧ x < a + bs.length then bs.getD (x - a) 0 else m x

/-- `alloc_bytes(tag, len)` followed by writing the bytes
(`heap.rs:28-34`, `bytecode.rs:330-331`). -/
def allocBytes (h : Heap) (tag : Nat) (bs : List UInt8) : Option (Heap × Nat) :=
  (rawAlloc h tag bs.length).map fun (h, a) => ({ h with mem := writeBytes h.mem (a + 24) bs }, a)

/-- Setting the mark of an object (`obj_header(a).mark = v`, `heap.rs:77,96,86`);
`obj_header` slices 24 bytes, `heap.rs:181-185`. -/
def setMark (m : Mem) (len a v : Nat) : Option Mem :=
  if a + 24 ≤ len then some (writeLE m (a + 4) 4 v) else none

/-- Marking all roots, `heap.rs:76-78`. -/
def markRoots (m : Mem) (len : Nat) : List Nat → Option Mem
  | [] => some m
  | r :: rs => (setMark m len r 1).bind fun m => markRoots m len rs

/-- Marking the objects pointed to by the fields read before, `heap.rs:94-98`.
`1 << i` overflows for `i ≥ 64`. -/
def markFields (m : Mem) (len ptrs : Nat) : (i : Nat) → List Nat → Option Mem
  | _, [] => some m
  | i, f :: fs =>
    if 64 ≤ i then none
    else if ptrs.testBit i then (setMark m len f 1).bind fun m => markFields m len ptrs (i + 1) fs
    else markFields m len ptrs (i + 1) fs

/-- The words of an object's body, `heap.rs:92-93`. -/
def fieldsOf (m : Mem) (a : Nat) : List Nat := (List.range (nfields m a)).map (fieldAt m a)

/-- The sweep loop, `heap.rs:79-100`: the retained addresses in ascending order.
`fuel` bounds the number of iterations; running out of it (`none`) never happens
on a well-formed heap, because every object has at least 24 bytes. -/
def sweep (len : Nat) : (fuel : Nat) → Mem → (cur : Nat) → Option (Mem × List Nat)
  | 0, _, _ => none
  | fuel + 1, m, cur =>
    if cur < len then
      let size := sizeAt m cur
      if cur + 24 ≤ len ∧ 24 ≤ size ∧ cur + size ≤ len then      -- `obj_parts_mut`, heap.rs:173-179
        if markAt m cur = 0 then sweep len fuel m (cur + size)
        else
          (setMark m len cur 0).bind fun m =>
            let m' :=
              if ptrsAt m cur ≠ 0 then markFields m len (ptrsAt m cur) 0 (fieldsOf m cur) else some m
            m'.bind fun m =>
              (sweep len fuel m (cur + size)).map fun (m, rs) => (m, cur :: rs)
      else none
    else some (m, [])

/-- `copy_within(src..src+size, dst)`, `heap.rs:114` (memmove). -/
def copyMem (m : Mem) (src dst size : Nat) : Mem := fun x =>
  if dst ≤ x ∧ x < dst + size then m (x - dst + src) else m x

/-- `move_dst[a / Header::SIZE]`, `heap.rs:115,120,126`; out of range panics. -/
def lookup (table : Nat → Nat) (tableLen a : Nat) : Option Nat :=
  if a / 24 < tableLen then some (table (a / 24)) else none

/-- Redirecting the pointer fields of a moved object, `heap.rs:117-123`. -/
def fixFields (table : Nat → Nat) (tableLen : Nat) (a ptrs : Nat) :
    (i n : Nat) → Mem → Option Mem
  | _, 0, m => some m
  | i, n + 1, m =>
    if 64 ≤ i then none
    else if ptrs.testBit i then
      (lookup table tableLen (fieldAt m a i)).bind fun d =>
        fixFields table tableLen a ptrs (i + 1) n (writeLE m (a + 24 + 8 * i) 8 d)
    else fixFields table tableLen a ptrs (i + 1) n m

/-- Loop state of the compaction phase. -/
structure MoveState where
  mem : Mem
  table : Nat → Nat
  bump : Nat

/-- One iteration of the compaction loop, `heap.rs:110-123`. -/
def moveOne (len tableLen : Nat) (st : MoveState) (addr : Nat) : Option MoveState :=
  if addr + 24 ≤ len then
    let size := sizeAt st.mem addr
    if size ≤ st.bump ∧ addr + size ≤ len ∧ addr / 24 < tableLen then
      let place := st.bump - size
      let m := copyMem st.mem addr place size
      let table := fun i => if i = addr / 24 then place else st.table i
      let m' :=
        if ptrsAt m place ≠ 0 then fixFields table tableLen place (ptrsAt m place) 0 (nfields m place) m
        else some m
      m'.map fun m => { mem := m, table, bump := place }
    else none
  else none

/-- The compaction loop, `heap.rs:109-124`; the argument is already reversed. -/
def moveAll (len tableLen : Nat) : MoveState → List Nat → Option MoveState
  | st, [] => some st
  | st, a :: as => (moveOne len tableLen st a).bind fun st => moveAll len tableLen st as

/-- Redirecting the roots, `heap.rs:125-127`. -/
def fixRoots (table : Nat → Nat) (tableLen : Nat) : List Nat → Option (List Nat)
  | [] => some []
  | r :: rs => (lookup table tableLen r).bind fun d => (fixRoots table tableLen rs).map (d :: ·)

/-- `collect_inner`, `heap.rs:71-129`: the new heap and the updated roots. -/
def collectInner (h : Heap) (roots : List Nat) (ensureFree : Nat) : Option (Heap × List Nat) :=
  (markRoots h.mem h.len roots).bind fun m =>
    (sweep h.len (h.len + 1) m h.bump).bind fun (m, retained) =>
      let retainedBytes := (retained.map (sizeAt m)).sum
      if 2 ^ 32 ≤ retainedBytes ∨ 2 ^ 32 ≤ ensureFree + retainedBytes then none   -- u32 overflow
      else
        let minCapacity := max (max (retainedBytes * 4) h.len) (ensureFree + retainedBytes)
        let len := if minCapacity > h.len then (minCapacity + 7) / 8 * 8 else h.len
        let m := if minCapacity > h.len then (fun x => if h.len ≤ x then 0 else m x) else m
        let tableLen := if minCapacity > h.len then minCapacity / 24 else h.tableLen
        (moveAll len tableLen { mem := m, table := h.table, bump := len } retained.reverse).bind fun st =>
          (fixRoots st.table tableLen roots).map fun roots =>
            ({ mem := st.mem, len, table := st.table, tableLen, bump := st.bump }, roots)

/-- `collect`, `heap.rs:67-69`. -/
def collect (h : Heap) (roots : List Nat) : Option (Heap × List Nat) := collectInner h roots 0

/-- `collect_and_grow`, `heap.rs:63-65`. -/
def collectAndGrow (h : Heap) (roots : List Nat) (ensureFree : Nat) : Option (Heap × List Nat) :=
  collectInner h roots ensureFree

/-- `obj_with_fields`, `heap.rs:131-144`: the tag and the fields. -/
def objFields (h : Heap) (a : Nat) : Nat × List Value :=
  (tagAt h.mem a, (List.range (nfields h.mem a)).map fun i =>
    if (ptrsAt h.mem a).testBit i then .ptr (fieldAt h.mem a i)
    else .int (UInt64.ofNat (fieldAt h.mem a i)))

/-- `obj_with_bytes`, `heap.rs:146-149`: the tag and the body bytes. -/
def objBytes (h : Heap) (a : Nat) : Nat × List UInt8 :=
  (tagAt h.mem a, (List.range (sizeAt h.mem a - 24)).map fun i => h.mem (a + 24 + i))

/-- `allocated`, `heap.rs:151-153`. -/
def Heap.allocated (h : Heap) : Nat := h.len - h.bump
/-- `capacity`, `heap.rs:155-157`. -/
def Heap.capacity (h : Heap) : Nat := h.len
/-- `free_space`, `heap.rs:159-161`. -/
def Heap.freeSpace (h : Heap) : Nat := h.capacity - h.allocated

end Tic.Heap
