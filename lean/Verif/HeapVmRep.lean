import Verif.HeapVm
import Verif.PropHeap
/-
What a value on the stack of the heap machine stands for, and that allocations and collections
do not change it.
-/
namespace Tic.Core
open Tic.Heap

/-- The object at `a` is the string `s`. -/
structure IsStr (h : Heap) (a : Nat) (s : List UInt8) : Prop where
  tag : tagAt h.mem a = s.length ||| stringTag
  small : s.length < 2 ^ 32
  ptrs : ptrsAt h.mem a = 0
  len : (objBytes h a).2.length = roundUp s.length
  bytes : (objBytes h a).2.take s.length = s

mutual
/-- The value `v` in heap `h`, whose objects are at `addrs` and whose booleans are at `t` and `f`,
stands for the tree `w`. -/
def Rep (h : Heap) (addrs : List Nat) (t f : Nat) : TVal → Value → Prop
  | .int x, v => v = .int x
  | .bool b, v => v = .ptr (if b then t else f)
  | .str s, v => ∃ a, v = .ptr a ∧ a ∈ addrs ∧ a ≠ t ∧ a ≠ f ∧ IsStr h a s
  | .obj tag fs, v => ∃ a, v = .ptr a ∧ a ∈ addrs ∧ a ≠ t ∧ a ≠ f ∧ tagAt h.mem a = tag ∧ tag / tagSize ≠ 1 ∧
      RepL h addrs t f fs (objFields h a).2
/-- ... for lists. -/
def RepL (h : Heap) (addrs : List Nat) (t f : Nat) : List TVal → List Value → Prop
  | [], vs => vs = []
  | w :: ws, vs => ∃ v vs', vs = v :: vs' ∧ Rep h addrs t f w v ∧ RepL h addrs t f ws vs'
end

/-! ### Lists -/

section
variable {h : Heap} {addrs : List Nat} {t f : Nat}

theorem RepL.nil : RepL h addrs t f [] [] := by rw [RepL]
theorem RepL.cons {w v ws vs} (h1 : Rep h addrs t f w v) (h2 : RepL h addrs t f ws vs) :
    RepL h addrs t f (w :: ws) (v :: vs) := by rw [RepL]; exact ⟨v, vs, rfl, h1, h2⟩
theorem RepL.nil_inv {vs} (h1 : RepL h addrs t f [] vs) : vs = [] := by rwa [RepL] at h1
theorem RepL.cons_inv {w ws vs} (h1 : RepL h addrs t f (w :: ws) vs) :
    ∃ v vs', vs = v :: vs' ∧ Rep h addrs t f w v ∧ RepL h addrs t f ws vs' := by rwa [RepL] at h1

theorem RepL.len : ∀ {ws vs}, RepL h addrs t f ws vs → ws.length = vs.length
  | [], _, h1 => by simp [h1.nil_inv]
  | _ :: _, _, h1 => by
    obtain ⟨v, vs, rfl, _, h2⟩ := h1.cons_inv
    simp [h2.len]

theorem RepL.get : ∀ {ws vs} {i : Nat} {w}, RepL h addrs t f ws vs → ws[i]? = some w →
    ∃ v, vs[i]? = some v ∧ Rep h addrs t f w v
  | [], _, _, _, _, e => by simp at e
  | _ :: _, _, i, w, h1, e => by
    obtain ⟨v, vs, rfl, h2, h3⟩ := h1.cons_inv
    cases i with
    | zero => simp at e; subst e; exact ⟨v, by simp, h2⟩
    | succ i => simpa using h3.get (i := i) (by simpa using e)

theorem RepL.append : ∀ {ws vs ws' vs'}, RepL h addrs t f ws vs → RepL h addrs t f ws' vs' →
    RepL h addrs t f (ws ++ ws') (vs ++ vs')
  | [], _, _, _, h1, h2 => by rw [h1.nil_inv]; exact h2
  | _ :: _, _, _, _, h1, h2 => by
    obtain ⟨v, vs, rfl, h3, h4⟩ := h1.cons_inv
    exact .cons h3 (h4.append h2)

theorem RepL.reverse : ∀ {ws vs}, RepL h addrs t f ws vs → RepL h addrs t f ws.reverse vs.reverse
  | [], _, h1 => by rw [h1.nil_inv]; exact .nil
  | _ :: _, _, h1 => by
    obtain ⟨v, vs, rfl, h3, h4⟩ := h1.cons_inv
    simp only [List.reverse_cons]
    exact h4.reverse.append (.cons h3 .nil)

theorem RepL.take : ∀ {ws vs} (n : Nat), RepL h addrs t f ws vs → RepL h addrs t f (ws.take n) (vs.take n)
  | _, _, 0, _ => by simp [RepL.nil]
  | [], _, _ + 1, h1 => by rw [h1.nil_inv]; exact .nil
  | _ :: _, _, n + 1, h1 => by
    obtain ⟨v, vs, rfl, h3, h4⟩ := h1.cons_inv
    exact .cons h3 (h4.take n)

theorem RepL.drop : ∀ {ws vs} (n : Nat), RepL h addrs t f ws vs → RepL h addrs t f (ws.drop n) (vs.drop n)
  | _, _, 0, h1 => by simpa using h1
  | [], _, _ + 1, h1 => by rw [h1.nil_inv]; exact .nil
  | _ :: _, _, n + 1, h1 => by
    obtain ⟨v, vs, rfl, h3, h4⟩ := h1.cons_inv
    simpa using h4.drop n

theorem RepL.set : ∀ {ws vs w v} (n : Nat), RepL h addrs t f ws vs → Rep h addrs t f w v →
    RepL h addrs t f (ws.set n w) (vs.set n v)
  | [], _, _, _, _, h1, _ => by rw [h1.nil_inv]; simp [RepL.nil]
  | _ :: _, _, _, _, 0, h1, h2 => by
    obtain ⟨v, vs, rfl, h3, h4⟩ := h1.cons_inv
    exact .cons h2 h4
  | _ :: _, _, _, _, n + 1, h1, h2 => by
    obtain ⟨v, vs, rfl, h3, h4⟩ := h1.cons_inv
    exact .cons h3 (h4.set n h2)

/-- The pointers of represented values are objects. -/
theorem Rep.mem (ht : t ∈ addrs) (hf : f ∈ addrs) {w : TVal} {v : Value} (h1 : Rep h addrs t f w v) :
    v.In addrs := by
  cases w with
  | int x => rw [Rep] at h1; subst h1; trivial
  | bool b => rw [Rep] at h1; subst h1; cases b <;> assumption
  | str s => rw [Rep] at h1; obtain ⟨a, rfl, h2, _⟩ := h1; exact h2
  | obj tag fs => rw [Rep] at h1; obtain ⟨a, rfl, h2, _⟩ := h1; exact h2

theorem RepL.mem (ht : t ∈ addrs) (hf : f ∈ addrs) : ∀ {ws vs}, RepL h addrs t f ws vs → ∀ v ∈ vs, v.In addrs
  | [], _, h1, v, hv => by rw [h1.nil_inv] at hv; simp at hv
  | _ :: _, _, h1, u, hv => by
    obtain ⟨v, vs, rfl, h3, h4⟩ := h1.cons_inv
    rcases List.mem_cons.1 hv with rfl | hv
    · exact h3.mem ht hf
    · exact h4.mem ht hf u hv
end

/-! ### Moving -/

/-- The objects `rs` of heap `h` are, with the same contents, in heap `h'`, where `a` is at `φ a`. -/
structure Moves (h : Heap) (rs : List Nat) (h' : Heap) (addrs' : List Nat) (φ : Nat → Nat) : Prop where
  mem : ∀ a ∈ rs, φ a ∈ addrs'
  inj : ∀ a ∈ rs, ∀ b ∈ rs, φ a = φ b → a = b
  tag : ∀ a ∈ rs, tagAt h'.mem (φ a) = tagAt h.mem a
  fields : ∀ a ∈ rs, (objFields h' (φ a)).2 = (objFields h a).2.map (Value.move φ)
  closed : ∀ a ∈ rs, ∀ v ∈ (objFields h a).2, v.In rs
  bytes : ∀ a ∈ rs, ptrsAt h.mem a = 0 → ptrsAt h'.mem (φ a) = 0 ∧ (objBytes h' (φ a)).2 = (objBytes h a).2

mutual
theorem Moves.rep {h h' : Heap} {addrs rs addrs' : List Nat} {φ : Nat → Nat} {t f : Nat}
    (hm : Moves h rs h' addrs' φ) (ht : t ∈ rs) (hf : f ∈ rs) : ∀ (w : TVal) (v : Value), v.In rs →
    Rep h addrs t f w v → Rep h' addrs' (φ t) (φ f) w (v.move φ)
  | .int x, v, _, h1 => by
    rw [Rep] at h1 ⊢; subst h1; rfl
  | .bool b, v, _, h1 => by
    rw [Rep] at h1 ⊢; subst h1; cases b <;> rfl
  | .str s, v, hv, h1 => by
    rw [Rep] at h1 ⊢
    obtain ⟨a, rfl, h2, h3, h4, hs⟩ := h1
    obtain ⟨b1, b2⟩ := hm.bytes a hv hs.ptrs
    exact ⟨φ a, rfl, hm.mem a hv, fun e => h3 (hm.inj _ hv _ ht e), fun e => h4 (hm.inj _ hv _ hf e),
      ⟨by rw [hm.tag a hv, hs.tag], hs.small, b1, by rw [b2]; exact hs.len, by rw [b2]; exact hs.bytes⟩⟩
  | .obj tag fs, v, hv, h1 => by
    rw [Rep] at h1 ⊢
    obtain ⟨a, rfl, h2, h3, h4, h5, h6, h7⟩ := h1
    exact ⟨φ a, rfl, hm.mem a hv, fun e => h3 (hm.inj _ hv _ ht e), fun e => h4 (hm.inj _ hv _ hf e),
      by rw [hm.tag a hv, h5], h6, by rw [hm.fields a hv]; exact Moves.repL hm ht hf fs _ (hm.closed a hv) h7⟩
theorem Moves.repL {h h' : Heap} {addrs rs addrs' : List Nat} {φ : Nat → Nat} {t f : Nat}
    (hm : Moves h rs h' addrs' φ) (ht : t ∈ rs) (hf : f ∈ rs) : ∀ (ws : List TVal) (vs : List Value), (∀ v ∈ vs, v.In rs) →
    RepL h addrs t f ws vs → RepL h' addrs' (φ t) (φ f) ws (vs.map (Value.move φ))
  | [], vs, _, h1 => by rw [h1.nil_inv]; exact .nil
  | w :: ws, vs, hv, h1 => by
    obtain ⟨v, vs, rfl, h3, h4⟩ := h1.cons_inv
    exact .cons (Moves.rep hm ht hf w v (hv v (by simp)) h3)
      (Moves.repL hm ht hf ws vs (fun v hv' => hv v (by simp [hv'])) h4)
end

theorem objFields_get (h : Heap) (a i : Nat) : (objFields h a).2[i]? = readField h a i := rfl

theorem move_id (v : Value) : v.move id = v := by cases v <;> rfl

/-- A collection moves the retained objects. -/
theorem Moves.of_collected {h h' : Heap} {addrs roots roots' rs : List Nat} {e : Nat} {φ : Nat → Nat}
    (hC : Collected h addrs roots e h' roots' rs φ) : Moves h rs h' (rs.map φ) φ where
  mem a ha := List.mem_map.2 ⟨a, ha, rfl⟩
  inj := hC.inj
  tag a ha := (hC.copied a ha).tag
  fields a ha := by
    apply List.ext_getElem?
    intro i
    rw [List.getElem?_map]
    exact (hC.readField ha i).1
  closed a ha v hv := by
    obtain ⟨i, hi⟩ := List.mem_iff_getElem?.1 hv
    exact (hC.readField ha i).2 v hi
  bytes a ha h0 := by
    have hc := hC.copied a ha
    refine ⟨by rw [hc.ptrs, h0], ?_⟩
    simp only [objBytes, hc.size]
    apply List.map_congr_left
    intro i hi
    simp only [List.mem_range] at hi
    exact hc.body h0 i (by omega)

/-- Fields of objects lead to objects. -/
theorem fields_closed {h : Heap} {addrs : List Nat} (hw : WF h addrs) {a : Nat} (ha : a ∈ addrs) :
    ∀ v ∈ (objFields h a).2, v.In addrs := by
  intro v hv
  simp only [objFields, List.mem_map, List.mem_range] at hv
  obtain ⟨i, _, rfl⟩ := hv
  split
  · rename_i hb
    exact (hw.ok.bits a ha i hb).2.2
  · trivial

/-- An allocation leaves everything where it is. -/
theorem Moves.of_alloc {h h' : Heap} {addrs addrs' : List Nat} (hw : WF h addrs) (hs : ∀ a ∈ addrs, a ∈ addrs')
    (hold : ∀ x, h.bump ≤ x → h'.mem x = h.mem x) : Moves h addrs h' addrs' id := by
  have hrd : ∀ r ∈ addrs, ∀ o n, readLE h'.mem (r + o) n = readLE h.mem (r + o) n := fun r hr o n => by
    have hge := hw.tiled.ge r hr
    exact readLE_congr (fun x h1 h2 => hold x (by omega))
  have hsz : ∀ r ∈ addrs, sizeAt h'.mem r = sizeAt h.mem r := fun r hr => hrd r hr 0 4
  have hpt : ∀ r ∈ addrs, ptrsAt h'.mem r = ptrsAt h.mem r := fun r hr => hrd r hr 8 8
  have htg : ∀ r ∈ addrs, tagAt h'.mem r = tagAt h.mem r := fun r hr => hrd r hr 16 8
  have hnf : ∀ r ∈ addrs, nfields h'.mem r = nfields h.mem r := fun r hr => by unfold nfields; rw [hsz r hr]
  have hfl : ∀ r ∈ addrs, ∀ i, fieldAt h'.mem r i = fieldAt h.mem r i := fun r hr i => by
    have := hrd r hr (24 + 8 * i) 8
    simpa [fieldAt, Nat.add_assoc] using this
  refine ⟨hs, fun a _ b _ e => e, htg, ?_, fun a ha => fields_closed hw ha, ?_⟩
  · intro a ha
    have : (Value.move id) = (id : Value → Value) := funext move_id
    rw [this, List.map_id]
    simp only [id, objFields, hnf a ha, hpt a ha, hfl a ha]
  · intro a ha h0
    refine ⟨by rw [id, hpt a ha, h0], ?_⟩
    simp only [id, objBytes, hsz a ha]
    apply List.map_congr_left
    intro i _
    have := hw.tiled.ge a ha
    exact hold _ (by omega)

/-- After an allocation everything stands for what it did. -/
theorem RepL.alloc {h h' : Heap} {addrs : List Nat} {a t f : Nat} (hw : WF h addrs)
    (hold : ∀ x, h.bump ≤ x → h'.mem x = h.mem x) (ht : t ∈ addrs) (hf : f ∈ addrs) {ws : List TVal} {vs : List Value}
    (h1 : RepL h addrs t f ws vs) : RepL h' (a :: addrs) t f ws vs := by
  have hm := Moves.of_alloc (h' := h') (addrs' := a :: addrs) hw (fun x hx => List.mem_cons_of_mem _ hx) hold
  have := hm.repL ht hf ws vs (h1.mem ht hf) h1
  rwa [show (Value.move id) = (id : Value → Value) from funext move_id, List.map_id] at this

theorem Rep.alloc {h h' : Heap} {addrs : List Nat} {a t f : Nat} (hw : WF h addrs)
    (hold : ∀ x, h.bump ≤ x → h'.mem x = h.mem x) (ht : t ∈ addrs) (hf : f ∈ addrs) {w : TVal} {v : Value}
    (h1 : Rep h addrs t f w v) : Rep h' (a :: addrs) t f w v := by
  have hm := Moves.of_alloc (h' := h') (addrs' := a :: addrs) hw (fun x hx => List.mem_cons_of_mem _ hx) hold
  have := hm.rep ht hf w v (h1.mem ht hf) h1
  rwa [show v.move id = v from move_id v] at this

/-- An object without contents. -/
def IsEmpty (h : Heap) (a : Nat) : Prop := ptrsAt h.mem a = 0 ∧ (objBytes h a).2 = []

theorem Moves.isEmpty {h h' : Heap} {rs addrs' : List Nat} {φ : Nat → Nat} (hm : Moves h rs h' addrs' φ) {a : Nat}
    (ha : a ∈ rs) (hs : IsEmpty h a) : IsEmpty h' (φ a) := by
  obtain ⟨b1, b2⟩ := hm.bytes a ha hs.1
  exact ⟨b1, by rw [b2]; exact hs.2⟩

theorem IsEmpty.alloc {h h' : Heap} {addrs : List Nat} {a : Nat} (hw : WF h addrs)
    (hold : ∀ x, h.bump ≤ x → h'.mem x = h.mem x) (ha : a ∈ addrs) (hs : IsEmpty h a) : IsEmpty h' a :=
  (Moves.of_alloc (h' := h') (addrs' := addrs) hw (fun _ hx => hx) hold).isEmpty ha hs

/-! ### New objects -/

theorem bump_not_mem {h : Heap} {addrs : List Nat} (hw : WF h addrs) {a : Nat} (ha : a < h.bump) : a ∉ addrs :=
  fun hm => by have := hw.tiled.ge a hm; omega

/-- A new object stands for the tree with the values of its fields. -/
theorem Allocated.rep {h h' : Heap} {addrs : List Nat} {tag a t f : Nat} {vals : List Value} {fs : List TVal} (hw : WF h addrs)
    (hA : Allocated h addrs tag vals h' a) (ht : t ∈ addrs) (hf : f ∈ addrs) (htag : tag / tagSize ≠ 1)
    (h1 : RepL h addrs t f fs vals) : Rep h' (a :: addrs) t f (.obj tag fs) (.ptr a) := by
  have hna : a ∉ addrs := bump_not_mem hw (by have := hA.addr; omega)
  have hnf : nfields h'.mem a = vals.length := by unfold nfields; rw [hA.size]; omega
  have hfields : (objFields h' a).2 = vals := by
    simp only [objFields, hnf]
    apply List.ext_getElem (by simp)
    intro i h1 h2
    simp only [List.getElem_map, List.getElem_range]
    have hget : vals.getD i (.int 0) = vals[i] := by simp [List.getD, h2]
    rw [hA.bits i, hA.field i h2, hget]
    cases vals[i] with
    | int x => simp [Value.isPtr, Value.word]
    | ptr p => simp [Value.isPtr, Value.word]
  rw [Rep]
  refine ⟨a, rfl, by simp, fun e => hna (e ▸ ht), fun e => hna (e ▸ hf), hA.tag, htag, ?_⟩
  rw [hfields]
  exact h1.alloc hw hA.old ht hf

/-- A new object without fields is empty. -/
theorem Allocated.isEmpty {h h' : Heap} {addrs : List Nat} {tag a : Nat} (hA : Allocated h addrs tag [] h' a) : IsEmpty h' a := by
  constructor
  · apply Nat.eq_of_testBit_eq
    intro i
    rw [hA.bits i]
    simp [Value.isPtr]
  · simp [objBytes, hA.size]

/-- The contents of a new string. -/
theorem isStr_of_alloc {h h' : Heap} {addrs : List Nat} {a : Nat} {s : List UInt8}
    (hA : AllocatedBytes h addrs (s.length ||| stringTag) s h' a) (hs : s.length < 2 ^ 32) : IsStr h' a s := by
  have hsz := hA.size
  have hru := roundUp_ge s.length
  refine ⟨hA.tag, hs, hA.ptrs, ?_, ?_⟩
  · simp only [objBytes, List.length_map, List.length_range]; omega
  · apply List.ext_getElem
    · simp only [objBytes, List.length_take, List.length_map, List.length_range]; omega
    · intro i h1 h2
      simp only [objBytes, List.getElem_take, List.getElem_map, List.getElem_range]
      rw [hA.bytes i h2]
      simp [List.getD, h2]

theorem AllocatedBytes.rep {h h' : Heap} {addrs : List Nat} {a t f : Nat} {s : List UInt8} (hw : WF h addrs)
    (hA : AllocatedBytes h addrs (s.length ||| stringTag) s h' a) (hs : s.length < 2 ^ 32) (ht : t ∈ addrs) (hf : f ∈ addrs) :
    Rep h' (a :: addrs) t f (.str s) (.ptr a) := by
  have hna : a ∉ addrs := bump_not_mem hw (by have := hA.addr; omega)
  rw [Rep]
  exact ⟨a, rfl, by simp, fun e => hna (e ▸ ht), fun e => hna (e ▸ hf), isStr_of_alloc hA hs⟩

/-! ### Reading -/

theorem inHeap_of_mem {h : Heap} {addrs : List Nat} (hw : WF h addrs) {a : Nat} (ha : a ∈ addrs) : inHeap h a = true := by
  have := hw.tiled.size a ha
  simp only [inHeap, decide_eq_true_eq]
  omega

theorem strTag_mod {n : Nat} (h : n < 2 ^ 32) : (n ||| stringTag) % tagSize = n ∧ (n ||| stringTag) / tagSize = 1 := by
  have e : n ||| stringTag = n + 2 ^ 48 := by
    have := Nat.two_pow_add_eq_or_of_lt (i := 48) (b := n) (by omega) 1
    simp only [Nat.mul_one] at this
    rw [stringTag, Nat.or_comm, ← this, Nat.add_comm]
  rw [e]
  unfold tagSize
  omega

theorem hvStr_of {h : Heap} {addrs : List Nat} (hw : WF h addrs) {a : Nat} {s : List UInt8} (ha : a ∈ addrs)
    (hs : IsStr h a s) : hvStr h a = some s := by
  rw [hvStr, hs.tag, (strTag_mod hs.small).1, if_pos ⟨inHeap_of_mem hw ha, by rw [hs.len]; exact (roundUp_ge _).1⟩, hs.bytes]

theorem hvFields_of {h : Heap} {addrs : List Nat} (hw : WF h addrs) {a : Nat} (ha : a ∈ addrs) :
    hvFields h a = some (objFields h a) := by
  rw [hvFields, if_pos (inHeap_of_mem hw ha)]

end Tic.Core
