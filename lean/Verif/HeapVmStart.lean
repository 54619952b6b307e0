import Verif.HeapVmOK
import Verif.PropVmAlloc
/-
Start of the heap machine, its run, and reading the results.
-/
namespace Tic.Core
open Tic.Heap

/-! ### Start -/

/-- The strings `ss` are at the addresses `as`. -/
def StrsAt (h : Heap) (addrs : List Nat) : List (List UInt8) → List Nat → Prop
  | [], as => as = []
  | s :: ss, as => ∃ a as', as = a :: as' ∧ a ∈ addrs ∧ IsStr h a s ∧ StrsAt h addrs ss as'

theorem Moves.isStr {h h' : Heap} {rs addrs' : List Nat} {φ : Nat → Nat} (hm : Moves h rs h' addrs' φ) {a : Nat} {s : List UInt8}
    (ha : a ∈ rs) (hs : IsStr h a s) : IsStr h' (φ a) s := by
  obtain ⟨b1, b2⟩ := hm.bytes a ha hs.ptrs
  exact ⟨by rw [hm.tag a ha, hs.tag], hs.small, b1, by rw [b2]; exact hs.len, by rw [b2]; exact hs.bytes⟩

theorem StrsAt.moves {h h' : Heap} {addrs rs addrs' : List Nat} {φ : Nat → Nat} (hm : Moves h rs h' addrs' φ) :
    ∀ (ss : List (List UInt8)) (as : List Nat), (∀ a ∈ as, a ∈ rs) → StrsAt h addrs ss as → StrsAt h' addrs' ss (as.map φ)
  | [], as, _, h1 => by
    rw [StrsAt] at h1; subst h1; rfl
  | s :: ss, as, hr, h1 => by
    rw [StrsAt] at h1
    obtain ⟨a, as', rfl, h2, h3, h4⟩ := h1
    exact ⟨φ a, as'.map φ, rfl, hm.mem a (hr a (by simp)), hm.isStr (hr a (by simp)) h3,
      StrsAt.moves hm ss as' (fun x hx => hr x (by simp [hx])) h4⟩

theorem StrsAt.mem {h : Heap} {addrs : List Nat} : ∀ {ss : List (List UInt8)} {as : List Nat}, StrsAt h addrs ss as →
    ∀ a ∈ as, a ∈ addrs
  | [], as, h1 => by rw [StrsAt] at h1; subst h1; simp
  | s :: ss, as, h1 => by
    rw [StrsAt] at h1
    obtain ⟨a, as', rfl, h2, h3, h4⟩ := h1
    intro b hb
    simp only [List.mem_cons] at hb
    rcases hb with rfl | hb
    · exact h2
    · exact h4.mem b hb

theorem StrsAt.snoc {h : Heap} {addrs : List Nat} {s : List UInt8} {a : Nat} (ha : a ∈ addrs) (hs : IsStr h a s) :
    ∀ {ss : List (List UInt8)} {as : List Nat}, StrsAt h addrs ss as → StrsAt h addrs (ss ++ [s]) (as ++ [a])
  | [], as, h1 => by rw [StrsAt] at h1; subst h1; exact ⟨a, [], rfl, ha, hs, rfl⟩
  | s' :: ss, as, h1 => by
    rw [StrsAt] at h1
    obtain ⟨a', as', rfl, h2, h3, h4⟩ := h1
    exact ⟨a', as' ++ [a], rfl, h2, h3, h4.snoc ha hs⟩

theorem StrsAt.alloc {h h' : Heap} {addrs : List Nat} {a : Nat} (hw : WF h addrs)
    (hold : ∀ x, h.bump ≤ x → h'.mem x = h.mem x) {ss : List (List UInt8)} {as : List Nat}
    (h1 : StrsAt h addrs ss as) : StrsAt h' (a :: addrs) ss as := by
  have hm := Moves.of_alloc (h' := h') (addrs' := a :: addrs) hw (fun x hx => List.mem_cons_of_mem _ hx) hold
  have := h1.moves hm ss as h1.mem
  simpa using this

theorem StrsAt.repL {h : Heap} {addrs : List Nat} {t f : Nat} : ∀ {ss : List (List UInt8)} {as : List Nat}, StrsAt h addrs ss as →
    t ∉ as → f ∉ as → RepL h addrs t f (ss.map .str) (as.map .ptr)
  | [], as, h1, _, _ => by rw [StrsAt] at h1; subst h1; exact .nil
  | s :: ss, as, h1, ht, hf => by
    rw [StrsAt] at h1
    obtain ⟨a, as', rfl, h2, h3, h4⟩ := h1
    simp only [List.mem_cons, not_or] at ht hf
    refine .cons ?_ (h4.repL ht.2 hf.2)
    rw [Rep]
    exact ⟨a, rfl, h2, fun e => ht.1 e.symm, fun e => hf.1 e.symm, h3⟩

theorem allocBytes_small {h : Heap} {tag : Nat} {bs : List UInt8} {r : Heap × Nat} (e : allocBytes h tag bs = some r) :
    bs.length < 2 ^ 32 := by
  cases hr : rawAlloc h tag bs.length with
  | none => simp [allocBytes, hr] at e
  | some p =>
    have := (rawAlloc_some (h' := p.1) (a := p.2) hr).1
    have := roundUp_ge bs.length
    omega

theorem linkConst_some {h h' : Heap} {addrs cs cs' : List Nat} {ss : List (List UInt8)} {s : List UInt8} (hw : WF h addrs)
    (hs : StrsAt h addrs ss cs) (e : linkConst h cs s = some (h', cs')) :
    ∃ addrs', WF h' addrs' ∧ StrsAt h' addrs' (ss ++ [s]) cs' := by
  unfold linkConst at e
  simp only [] at e
  have alloc : ∀ {h1 : Heap} {cs1 addrs1 : List Nat}, WF h1 addrs1 → StrsAt h1 addrs1 ss cs1 →
      ((allocBytes h1 (s.length ||| stringTag) s).map fun r => (r.1, cs1 ++ [r.2])) = some (h', cs') →
      ∃ addrs', WF h' addrs' ∧ StrsAt h' addrs' (ss ++ [s]) cs' := by
    intro h1 cs1 addrs1 hw1 hs1 e
    simp only [Option.map_eq_some_iff] at e
    obtain ⟨⟨h2, a⟩, e1, e2⟩ := e
    simp only [Prod.mk.injEq] at e2
    obtain ⟨rfl, rfl⟩ := e2
    have hlen := allocBytes_small e1
    have htag : s.length ||| stringTag < 2 ^ 64 := Nat.or_lt_two_pow (by omega) (by unfold stringTag; decide)
    have hA := allocBytes_some hw1 htag e1
    exact ⟨a :: addrs1, hA.wf, (hs1.alloc hw1 hA.old).snoc (by simp) (isStr_of_alloc hA hlen)⟩
  split at e
  · simp only [Option.bind_eq_some_iff] at e
    obtain ⟨⟨h1, cs1⟩, e1, e2⟩ := e
    obtain ⟨φ, hC⟩ := collectInner_some hw hs.mem e1
    refine alloc hC.wf ?_ e2
    rw [hC.roots]
    exact hs.moves (Moves.of_collected hC) ss cs (fun a ha => (hC.reach a).2 (.base ha))
  · simp only [Option.bind_some] at e
    exact alloc hw hs e

theorem linkConsts_some : ∀ (rest : List (List UInt8)) {h h' : Heap} {addrs cs cs' : List Nat} {ss : List (List UInt8)}, WF h addrs →
    StrsAt h addrs ss cs → linkConsts h cs rest = some (h', cs') → ∃ addrs', WF h' addrs' ∧ StrsAt h' addrs' (ss ++ rest) cs'
  | [], h, h', addrs, cs, cs', ss, hw, hs, e => by
    simp only [linkConsts, Option.some.injEq, Prod.mk.injEq] at e
    obtain ⟨rfl, rfl⟩ := e
    exact ⟨addrs, hw, by simpa using hs⟩
  | s :: rest, h, h', addrs, cs, cs', ss, hw, hs, e => by
    simp only [linkConsts, Option.bind_eq_some_iff] at e
    obtain ⟨⟨h1, cs1⟩, e1, e2⟩ := e
    obtain ⟨addrs1, hw1, hs1⟩ := linkConst_some hw hs e1
    have := linkConsts_some rest hw1 hs1 e2
    simpa using this

/-- The machine starts with the constants in the heap and an empty stack. -/
theorem start_hinv {consts : List (List UInt8)} {rt : Runtime} (e : Runtime.start consts = some rt) :
    ∃ addrs, HInv consts ⟨0, []⟩ ⟨0, [], rt⟩ addrs := by
  simp only [Runtime.start, Option.bind_eq_some_iff, Option.map_eq_some_iff] at e
  obtain ⟨⟨h, cs⟩, e1, ⟨h1, f⟩, e2, ⟨h2, t⟩, e3, rfl⟩ := e
  obtain ⟨addrs, hw, hs⟩ := linkConsts_some consts (ss := []) WF.new rfl e1
  simp only [List.nil_append] at hs
  have hA1 := allocObject_some hw (by decide) (by simp) (by simp) e2
  have hA2 := allocObject_some hA1.wf (by decide) (by simp) (by simp) e3
  have hf : f ∉ addrs := bump_not_mem hw (by have := hA1.addr; simp at this; omega)
  have ht : t ∉ f :: addrs := bump_not_mem hA1.wf (by have := hA2.addr; simp at this; omega)
  have hs2 := (hs.alloc (a := f) hw hA1.old).alloc (a := t) hA1.wf hA2.old
  refine ⟨t :: f :: addrs, rfl, hA2.wf, by simp, by simp, fun h => ht (by simp [show t = f from h]),
    ⟨Allocated.isEmpty hA2, (Allocated.isEmpty hA1).alloc hA1.wf hA2.old (by simp)⟩, .nil, ?_⟩
  exact hs2.repL (fun h => ht (List.mem_cons_of_mem _ (hs.mem _ h))) (fun h => hf (hs.mem _ h))

/-! ### Runs -/

/-- A run: the heap machine does what the machine on trees does, or hits a limit of the heap. -/
theorem hvRun_ok {ops : List LOp} {consts : List (List UInt8)} (hops : GoodOps ops) : ∀ (n : Nat) {s : VM} {hs : HVM} {addrs : List Nat},
    HInv consts s hs addrs → vmRun ops consts n s ≠ .panic →
    hvRun ops n hs = .limit ∨ match vmRun ops consts n s with
      | .ok st => ∃ hs' addrs' ip, hvRun ops n hs = .res (.ok hs') ∧ HInv consts ⟨ip, st⟩ hs' addrs'
      | .trap m => hvRun ops n hs = .res (.trap m)
      | .timeout => hvRun ops n hs = .res .timeout
      | .panic => False
  | 0, s, hs, addrs, hi, _ => .inr rfl
  | n + 1, s, hs, addrs, hi, hp => by
    have h1 := hvStep_ok hops hi
    rw [vmRun] at hp ⊢
    rw [hvRun]
    cases hv : vmStep ops consts s with
    | next s1 =>
      rw [hv] at h1 hp
      rcases h1 with h1 | ⟨hs1, addrs1, h1, hi1⟩
      · rw [h1]; exact .inl rfl
      · rw [h1]; exact hvRun_ok hops n hi1 hp
    | exit st =>
      rw [hv] at h1
      rcases h1 with h1 | ⟨hs1, addrs1, h1, ip, hi1⟩
      · rw [h1]; exact .inl rfl
      · rw [h1]; exact .inr ⟨_, _, _, rfl, hi1⟩
    | trap m =>
      rw [hv] at h1
      rcases h1 with h1 | h1
      · rw [h1]; exact .inl rfl
      · rw [h1]; exact .inr rfl
    | stuck => rw [hv] at hp; exact absurd rfl hp

end Tic.Core
