import Verif.Names
/-
C28 (generated names are never reused and print differently) and
C29 (printed strings are unambiguous).
-/
namespace Tic.Names

/-! ### Helpers -/

theorem digitChar_toNat {d : Nat} (h : d < 10) : (digitChar d).toNat = 48 + d := by
  have : ∀ d : Fin 10, (digitChar d.val).toNat = 48 + d.val := by decide
  exact this ⟨d, h⟩

/-- Value of a decimal string, most significant digit first. -/
def value (s : List Char) : Nat := s.foldl (fun a c => a * 10 + (c.toNat - 48)) 0

theorem decimal_spec (n : Nat) :
    value (decimal n) = n ∧ decimal n ≠ [] ∧ ∀ c ∈ decimal n, 48 ≤ c.toNat ∧ c.toNat ≤ 57 := by
  induction n using Nat.strongRecOn with
  | ind n ih =>
    unfold decimal
    split
    · rename_i h
      have := digitChar_toNat h
      simp [value, this]; omega
    · rename_i h
      obtain ⟨h1, h2, h3⟩ := ih (n / 10) (by omega)
      have hd := digitChar_toNat (d := n % 10) (by omega)
      refine ⟨?_, by simp, ?_⟩
      · unfold value at *
        rw [List.foldl_append, h1]
        simp [hd]; omega
      · intro c hc
        rcases List.mem_append.1 hc with h | h
        · exact h3 c h
        · simp at h; subst h; omega

theorem decimal_inj {m n : Nat} (h : decimal m = decimal n) : m = n := by
  rw [← (decimal_spec m).1, h, (decimal_spec n).1]

theorem decimal_no_underscore (n : Nat) : '_' ∉ decimal n := by
  intro h
  have := (decimal_spec n).2.2 _ h
  revert this; decide

/-- Splitting at the last underscore is unique. -/
theorem split_last {a b c d : List Char} (hb : '_' ∉ b) (hd : '_' ∉ d)
    (h : a ++ '_' :: b = c ++ '_' :: d) : a = c ∧ b = d := by
  rcases List.append_eq_append_iff.1 h with ⟨t, h1, h2⟩ | ⟨t, h1, h2⟩
  · cases t with
    | nil => simp at h1 h2; exact ⟨h1.symm, h2⟩
    | cons x xs =>
      simp at h2
      exact absurd (by rw [h2.2]; simp) hb
  · cases t with
    | nil => simp at h1 h2; exact ⟨h1, h2.symm⟩
    | cons x xs =>
      simp at h2
      exact absurd (by rw [h2.2]; simp) hd

theorem run_fresh {g g' : NameGenerator} {op : GenOp} {n : Nat} (h : op.run g = some (g', n)) :
    n = g.names.length ∧ ∃ d, g'.names = g.names ++ [d] := by
  cases op with
  | fresh d =>
    simp only [GenOp.run, NameGenerator.newFresh, Option.some.injEq, Prod.mk.injEq] at h
    obtain ⟨rfl, rfl⟩ := h; exact ⟨by simp, d, rfl⟩
  | synthetic =>
    simp only [GenOp.run, NameGenerator.nextSynthetic, NameGenerator.newFresh, Option.some.injEq,
      Prod.mk.injEq] at h
    obtain ⟨rfl, rfl⟩ := h; exact ⟨by simp, _, rfl⟩
  | copy o =>
    simp only [GenOp.run, NameGenerator.newCopy, Option.map_eq_some_iff] at h
    obtain ⟨d, -, h⟩ := h
    simp only [NameGenerator.newFresh, Prod.mk.injEq] at h
    obtain ⟨rfl, rfl⟩ := h; exact ⟨by simp, d, rfl⟩

theorem runOps_range {g g' : NameGenerator} {ops : List GenOp} {ns : List Nat}
    (h : runOps g ops = some (g', ns)) :
    ns = List.range' g.names.length ops.length ∧ ∃ ds, g'.names = g.names ++ ds ∧ ds.length = ops.length := by
  induction ops generalizing g ns with
  | nil => simp [runOps] at h; obtain ⟨rfl, rfl⟩ := h; exact ⟨rfl, [], by simp⟩
  | cons op ops ih =>
    simp only [runOps, Option.bind_eq_some_iff, Option.map_eq_some_iff] at h
    obtain ⟨⟨g1, n⟩, h1, ⟨g2, ns'⟩, h2, h3⟩ := h
    simp only [Prod.mk.injEq] at h3
    obtain ⟨rfl, rfl⟩ := h3
    obtain ⟨rfl, d, hd⟩ := run_fresh h1
    obtain ⟨rfl, ds, hds, hl⟩ := ih h2
    refine ⟨?_, d :: ds, by rw [hds, hd]; simp, by simp [hl]⟩
    rw [hd]; simp [List.range'_succ]

/-! ### C28 -/

/-- Along any history of generator calls, starting anywhere, all generated names
are pairwise different and different from every name that existed before. -/
theorem generated_names_fresh (g g' : NameGenerator) (ops : List GenOp) (ns : List Nat)
    (h : runOps g ops = some (g', ns)) :
    ns.Nodup ∧ ∀ n ∈ ns, g.names[n]? = none ∧ g'.names[n]? ≠ none := by
  obtain ⟨rfl, ds, hds, hl⟩ := runOps_range h
  refine ⟨List.nodup_range', fun n hn => ?_⟩
  rw [List.mem_range'_1] at hn
  refine ⟨List.getElem?_eq_none hn.1, ?_⟩
  rw [hds, ne_eq, List.getElem?_eq_none_iff]
  simp; omega

/-- A history panics only if it copies a name that does not exist. -/
theorem generator_total (g : NameGenerator) (ops : List GenOp)
    (h : ∀ o, GenOp.copy o ∈ ops → o < g.names.length) : runOps g ops ≠ none := by
  induction ops generalizing g with
  | nil => simp [runOps]
  | cons op ops ih =>
    have : ∃ g1 n, op.run g = some (g1, n) := by
      cases op with
      | fresh d => exact ⟨_, _, rfl⟩
      | synthetic => exact ⟨_, _, rfl⟩
      | copy o =>
        have := h o (by simp)
        simp only [GenOp.run, NameGenerator.newCopy, List.getElem?_eq_getElem this, Option.map_some]
        exact ⟨_, _, rfl⟩
    obtain ⟨g1, n, h1⟩ := this
    obtain ⟨-, d, hd⟩ := run_fresh h1
    have := ih g1 (fun o ho => by have := h o (by simp [ho]); rw [hd]; simp; omega)
    simp only [runOps, h1, Option.bind_some]
    cases hr : runOps g1 ops with
    | none => exact absurd hr this
    | some p => simp

/-- Different names print differently, whatever their debug names are. -/
theorem showDebug_injective (g : NameGenerator) (a b : Nat) (s : List Char)
    (ha : g.showDebug a = some s) (hb : g.showDebug b = some s) : a = b := by
  simp only [NameGenerator.showDebug, Option.map_eq_some_iff] at ha hb
  obtain ⟨x, -, rfl⟩ := ha
  obtain ⟨y, -, hy⟩ := hb
  exact (decimal_inj (split_last (decimal_no_underscore b) (decimal_no_underscore a) hy).2).symm

-- Non-vacuity: debug names that themselves look like `x_1`.
example : ∃ g ns, runOps {} [.fresh "x".toList, .fresh "x_1".toList, .copy 0] = some (g, ns) ∧
    ns = [0, 1, 2] ∧ g.showDebug 1 = some "x_1_1".toList ∧ g.showDebug 2 = some "x_2".toList := by
  refine ⟨_, _, rfl, rfl, ?_, ?_⟩
  · simp [NameGenerator.showDebug, decimal]; decide
  · simp [NameGenerator.showDebug, decimal]; decide

/-! ### C29 -/

/-- The full claim: different strings print differently. -/
def PrintedStringsUnambiguous : Prop := ∀ a b : List UInt8, showBytes a = showBytes b → a = b

/-- It fails: backslash is not escaped, so the two-byte string `\n` (92, 110) prints
like a newline. -/
theorem printedStringsUnambiguous_fails : ¬ PrintedStringsUnambiguous := by
  intro h
  have := h [92, 110] [10] (by decide)
  revert this; decide

/-- Reading one printed byte. -/
def readByte : List Char → Option (Nat × List Char)
  | '\\' :: 'r' :: t => some (13, t)
  | '\\' :: 'n' :: t => some (10, t)
  | '\\' :: 'x' :: h :: l :: t =>
    let un (c : Char) := if c.toNat ≤ 57 then c.toNat - 48 else c.toNat - 97 + 10
    some (un h * 16 + un l, t)
  | '\\' :: _ => none
  | c :: t => some (c.toNat, t)
  | [] => none

theorem readByte_plain (c : Char) (t : List Char) (h : c ≠ '\\') :
    readByte (c :: t) = some (c.toNat, t) := by
  unfold readByte
  split <;> simp_all

theorem readByte_showByte (b : UInt8) (h : b ≠ 92) (t : List Char) :
    readByte (showByte b ++ t) = some (b.toNat, t) := by
  unfold showByte
  have hb := b.toNat_lt
  split
  · rename_i hr
    have hv : (Char.ofNat b.toNat).toNat = b.toNat := by
      have : ∀ n : Fin 128, (Char.ofNat n.val).toNat = n.val := by decide
      exact this ⟨b.toNat, by omega⟩
    have hne : Char.ofNat b.toNat ≠ '\\' := by
      intro hc
      have h2 : (Char.ofNat b.toNat).toNat = 92 := by rw [hc]; decide
      rw [hv] at h2
      apply h
      exact UInt8.toNat.inj (by rw [h2]; rfl)
    simp [readByte_plain _ _ hne, hv]
  · split
    · rename_i h13; simp [readByte, h13]
    · split
      · rename_i h10; simp [readByte, h10]
      · have hx : ∀ n : Fin 16, (if (hexDigit n.val).toNat ≤ 57 then (hexDigit n.val).toNat - 48
            else (hexDigit n.val).toNat - 97 + 10) = n.val := by decide
        have h1 := hx ⟨b.toNat / 16, by omega⟩
        have h2 := hx ⟨b.toNat % 16, by omega⟩
        simp only [List.cons_append, List.nil_append, readByte]
        simp only at h1 h2
        rw [h1, h2]
        congr 2; omega

theorem flatMap_showByte_inj (a b : List UInt8) (ha : 92 ∉ a) (hb : 92 ∉ b)
    (h : a.flatMap showByte = b.flatMap showByte) : a = b := by
  have hne : ∀ x : UInt8, showByte x ≠ [] := by
    intro x; unfold showByte; split
    · simp
    · split
      · simp
      · split <;> simp
  induction a generalizing b with
  | nil =>
    cases b with
    | nil => rfl
    | cons y ys => simp at h; exact absurd h.1 (hne y)
  | cons x xs ih =>
    cases b with
    | nil => simp at h; exact absurd h.1 (hne x)
    | cons y ys =>
      simp only [List.flatMap_cons] at h
      simp at ha hb
      have h1 := readByte_showByte x (fun e => ha.1 e.symm) (xs.flatMap showByte)
      have h2 := readByte_showByte y (fun e => hb.1 e.symm) (ys.flatMap showByte)
      rw [h, h2] at h1
      simp only [Option.some.injEq, Prod.mk.injEq] at h1
      have hxy : y = x := UInt8.toNat.inj h1.1
      rw [hxy, ih ys ha.2 hb.2 h1.2.symm]

/-- The part that holds: strings without a backslash byte print differently.
Missing: strings containing byte 92, see `printedStringsUnambiguous_fails`. -/
theorem printedStringsUnambiguous_partial (a b : List UInt8) (ha : 92 ∉ a) (hb : 92 ∉ b)
    (h : showBytes a = showBytes b) : a = b := by
  unfold showBytes at h
  simp only [List.cons.injEq, true_and] at h
  exact flatMap_showByte_inj a b ha hb (List.append_cancel_right h)

-- Non-vacuity.
example : (92 : UInt8) ∉ [0, 255, 10, 34, 65] ∧ showBytes [0, 255, 10, 34, 65] = "\"\\x00\\xff\\n\"A\"".toList := by
  decide

/-- A printed string is printable ASCII whatever its bytes: no control character, no newline, no DEL, so it
stays on its line and shows on any terminal. -/
theorem printedStrings_printable (bs : List UInt8) (c : Char) (h : c ∈ showBytes bs) : 32 ≤ c.toNat ∧ c.toNat ≤ 126 := by
  have hd : ∀ n, 32 ≤ (hexDigit n).toNat ∧ (hexDigit n).toNat ≤ 126 := by
    intro n
    by_cases hn : n ≤ 15
    · exact (by decide : ∀ n : Fin 16, 32 ≤ (hexDigit n.1).toNat ∧ (hexDigit n.1).toNat ≤ 126) ⟨n, by omega⟩
    · have e : hexDigit n = '?' := by unfold hexDigit; rw [if_neg (by omega), if_neg (by omega)]
      rw [e]; decide
  unfold showBytes at h
  simp only [List.mem_cons, List.mem_append, List.mem_flatMap, List.not_mem_nil, or_false] at h
  rcases h with rfl | ⟨b, _, h⟩ | rfl
  · decide
  · unfold showByte at h
    split at h
    · rename_i hb
      simp only [List.mem_cons, List.not_mem_nil, or_false] at h
      have e : (Char.ofNat b.toNat).toNat = b.toNat := by
        have hv : b.toNat.isValidChar := .inl (by omega)
        simp only [Char.ofNat, dif_pos hv, Char.toNat, Char.ofNatAux]
        rfl
      rw [h, e]
      exact hb
    · split at h
      · simp only [List.mem_cons, List.not_mem_nil, or_false] at h
        rcases h with rfl | rfl <;> decide
      · split at h
        · simp only [List.mem_cons, List.not_mem_nil, or_false] at h
          rcases h with rfl | rfl <;> decide
        · simp only [List.mem_cons, List.not_mem_nil, or_false] at h
          rcases h with rfl | rfl | rfl | rfl
          · decide
          · decide
          · exact hd _
          · exact hd _
  · decide

end Tic.Names
