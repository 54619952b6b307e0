import Verif.Numck
/-
C16: number literals.
-/
namespace Tic.Numck

/-! ### Specification -/

/-- `c` is a decimal digit. -/
def IsDigit (c : Char) : Prop := '0' ≤ c ∧ c ≤ '9'

instance (c : Char) : Decidable (IsDigit c) := inferInstanceAs (Decidable (_ ∧ _))

/-- Value of a digit string read in base ten: least significant digit last. -/
def decimalValue (s : List Char) : Nat :=
  (s.reverse.zipIdx.map fun p => (p.1.toNat - 48) * 10 ^ p.2).sum

/-- No diagnostic is reported. -/
def Accepted (s : List Char) : Prop := diagnostic s = some none

/-! ### Helpers -/

theorem toDigit_some {c : Char} {d : Nat} : toDigit c = some d ↔ IsDigit c ∧ d = c.toNat - 48 := by
  unfold toDigit IsDigit
  have h48 : '0'.toNat = 48 := rfl
  split
  · rename_i h
    simp only [Option.some.injEq, h48, h, and_self, true_and]
    exact eq_comm
  · rename_i h
    simp [h]

theorem toDigit_none {c : Char} : toDigit c = none ↔ ¬ IsDigit c := by
  unfold toDigit IsDigit
  split <;> simp_all

/-- Left-to-right evaluation. -/
def horner : List Char → Nat → Nat
  | [], acc => acc
  | c :: cs, acc => horner cs (acc * 10 + (c.toNat - 48))

theorem horner_mono (s : List Char) (a : Nat) : a ≤ horner s a := by
  induction s generalizing a with
  | nil => simp [horner]
  | cons c cs ih =>
    have := ih (a * 10 + (c.toNat - 48))
    simp only [horner]; omega

theorem horner_append (s : List Char) (c : Char) (a : Nat) :
    horner (s ++ [c]) a = horner s a * 10 + (c.toNat - 48) := by
  induction s generalizing a with
  | nil => simp [horner]
  | cons d ds ih => simp only [List.cons_append, horner, ih]

theorem sum_zipIdx_succ (l : List Char) (k : Nat) :
    ((l.zipIdx (k + 1)).map fun p => (p.1.toNat - 48) * 10 ^ p.2).sum
      = 10 * ((l.zipIdx k).map fun p => (p.1.toNat - 48) * 10 ^ p.2).sum := by
  induction l generalizing k with
  | nil => simp
  | cons c cs ih =>
    simp only [List.zipIdx_cons, List.map_cons, List.sum_cons, ih, Nat.mul_add]
    congr 1
    rw [Nat.pow_succ, ← Nat.mul_assoc, Nat.mul_comm]

theorem decimalValue_snoc (s : List Char) (c : Char) :
    decimalValue (s ++ [c]) = decimalValue s * 10 + (c.toNat - 48) := by
  unfold decimalValue
  simp only [List.reverse_append, List.reverse_cons, List.reverse_nil, List.nil_append,
    List.cons_append, List.zipIdx_cons, List.map_cons, List.sum_cons]
  rw [sum_zipIdx_succ]
  simp; omega

theorem decimalValue_eq_horner (s : List Char) : decimalValue s = horner s 0 := by
  obtain ⟨r, rfl⟩ : ∃ r, s = List.reverse r := ⟨s.reverse, by simp⟩
  induction r with
  | nil => rfl
  | cons c cs ih =>
    rw [List.reverse_cons, decimalValue_snoc, horner_append, ih]

theorem step_some {acc d a : Nat} :
    (checkedMul acc 10).bind (fun a => checkedAdd a d) = some a ↔
      acc * 10 + d < 2 ^ 64 ∧ a = acc * 10 + d := by
  unfold checkedMul checkedAdd
  split <;> simp <;> omega

theorem parseLoop_ok (s : List Char) (acc v : Nat) (hacc : acc < 2 ^ 64) :
    parseLoop s acc = .ok v ↔ (∀ c ∈ s, IsDigit c) ∧ horner s acc < 2 ^ 64 ∧ v = horner s acc := by
  induction s generalizing acc with
  | nil =>
    simp only [parseLoop, horner, Except.ok.injEq]
    constructor
    · rintro rfl; simp [hacc]
    · rintro ⟨-, -, rfl⟩; rfl
  | cons c cs ih =>
    unfold parseLoop
    cases hd : toDigit c with
    | none =>
      have := toDigit_none.1 hd
      simp [this]
    | some d =>
      obtain ⟨hdig, rfl⟩ := toDigit_some.1 hd
      cases hs : (checkedMul acc 10).bind (fun a => checkedAdd a (c.toNat - 48)) with
      | none =>
        have hge : ¬ (acc * 10 + (c.toNat - 48) < 2 ^ 64) := fun h => by
          have := (step_some (acc := acc) (d := c.toNat - 48)).2 ⟨h, rfl⟩
          simp [hs] at this
        have := horner_mono cs (acc * 10 + (c.toNat - 48))
        simp only [hs, horner]
        constructor
        · intro h; cases h
        · rintro ⟨-, h, -⟩; omega
      | some a =>
        obtain ⟨hlt, rfl⟩ := step_some.1 hs
        simp only [hs, horner]
        rw [ih _ hlt]
        simp [hdig]

theorem stdLoop_some (s : List Char) (acc v : Nat) (hacc : acc < 2 ^ 64) :
    stdLoop s acc = some v ↔ (∀ c ∈ s, IsDigit c) ∧ horner s acc < 2 ^ 64 ∧ v = horner s acc := by
  induction s generalizing acc with
  | nil =>
    simp only [stdLoop, horner, Option.some.injEq]
    constructor
    · rintro rfl; simp [hacc]
    · rintro ⟨-, -, rfl⟩; rfl
  | cons c cs ih =>
    unfold stdLoop
    have hm := horner_mono cs (acc * 10 + (c.toNat - 48))
    by_cases h1 : acc * 10 < 2 ^ 64
    · simp only [checkedMul, h1, if_true]
      cases hd : toDigit c with
      | none => simp [toDigit_none.1 hd]
      | some d =>
        obtain ⟨hdig, rfl⟩ := toDigit_some.1 hd
        by_cases h2 : acc * 10 + (c.toNat - 48) < 2 ^ 64
        · simp only [checkedAdd, h2, if_true, horner]
          rw [ih _ h2]; simp [hdig]
        · simp only [checkedAdd, h2, if_false, horner]
          constructor
          · intro h; cases h
          · rintro ⟨-, h, -⟩; omega
    · simp only [checkedMul, h1, if_false, horner]
      constructor
      · intro h; cases h
      · rintro ⟨-, h, -⟩; omega

theorem parseLoop_invalid (s : List Char) (acc : Nat) :
    parseLoop s acc = .error .invalidDigit ↔
      ∃ pre c post, s = pre ++ c :: post ∧ (∀ d ∈ pre, IsDigit d) ∧ ¬ IsDigit c
        ∧ (pre ≠ [] → horner pre acc < 2 ^ 64) := by
  induction s generalizing acc with
  | nil => simp [parseLoop]
  | cons c cs ih =>
    unfold parseLoop
    cases hd : toDigit c with
    | none =>
      simp only [true_iff]
      exact ⟨[], c, cs, rfl, by simp, toDigit_none.1 hd, by simp⟩
    | some d =>
      obtain ⟨hdig, rfl⟩ := toDigit_some.1 hd
      cases hs : (checkedMul acc 10).bind (fun a => checkedAdd a (c.toNat - 48)) with
      | none =>
        have hge : ¬ (acc * 10 + (c.toNat - 48) < 2 ^ 64) := fun h => by
          have := (step_some (acc := acc) (d := c.toNat - 48)).2 ⟨h, rfl⟩
          simp [hs] at this
        simp only [hs]
        constructor
        · intro h; simp at h
        · rintro ⟨pre, x, post, heq, hp, hx, hlt⟩
          cases pre with
          | nil => simp at heq; exact absurd hdig (heq.1 ▸ hx)
          | cons y ys =>
            simp at heq
            obtain ⟨rfl, rfl⟩ := heq
            have := horner_mono ys (acc * 10 + (c.toNat - 48))
            have h2 := hlt (by simp)
            simp only [horner] at h2
            omega
      | some a =>
        obtain ⟨hlt, rfl⟩ := step_some.1 hs
        simp only [hs]
        rw [ih]
        constructor
        · rintro ⟨pre, x, post, rfl, hp, hx, hl⟩
          refine ⟨c :: pre, x, post, rfl, ?_, hx, ?_⟩
          · intro d hd'; rcases List.mem_cons.1 hd' with rfl | h
            · exact hdig
            · exact hp _ h
          · intro _
            by_cases hpn : pre = []
            · subst hpn; simpa [horner] using hlt
            · simpa [horner] using hl hpn
        · rintro ⟨pre, x, post, heq, hp, hx, hl⟩
          cases pre with
          | nil => simp at heq; exact absurd hdig (heq.1 ▸ hx)
          | cons y ys =>
            simp at heq
            obtain ⟨rfl, rfl⟩ := heq
            refine ⟨ys, x, post, rfl, fun d hd' => hp d (by simp [hd']), hx, ?_⟩
            intro _
            have := hl (by simp)
            simpa [horner] using this

/-! ### Theorems -/

/-- A literal gets no diagnostic exactly when it is a non-empty string of
decimal digits whose value is below 2^64. -/
theorem accepted_iff (s : List Char) :
    Accepted s ↔ s ≠ [] ∧ (∀ c ∈ s, IsDigit c) ∧ decimalValue s < 2 ^ 64 := by
  unfold Accepted diagnostic parseInt
  rw [decimalValue_eq_horner]
  by_cases hs : s = []
  · simp [hs]
  · simp only [hs, if_false, Option.map_some, Option.some.injEq, ne_eq, not_false_eq_true, true_and]
    cases hp : parseLoop s 0 with
    | ok v => have := (parseLoop_ok s 0 v (by decide)).1 hp; simpa using ⟨this.1, this.2.1⟩
    | error e =>
      have hno : ¬ ((∀ c ∈ s, IsDigit c) ∧ horner s 0 < 2 ^ 64) := by
        rintro ⟨h1, h2⟩
        have := (parseLoop_ok s 0 _ (by decide)).2 ⟨h1, h2, rfl⟩
        rw [hp] at this; cases this
      cases e <;> simp <;> simpa using hno

/-- For an accepted literal the code generator's parse succeeds and yields the
decimal value. -/
theorem accepted_codegen_value (s : List Char) (h : Accepted s) :
    codegenParse s = some (decimalValue s) := by
  obtain ⟨hne, hdig, hlt⟩ := (accepted_iff s).1 h
  rw [decimalValue_eq_horner] at *
  have key := (stdLoop_some s 0 _ (by decide)).2 ⟨hdig, hlt, rfl⟩
  unfold codegenParse
  split
  · exact absurd rfl hne
  · exact absurd (hdig '+' (by simp)) (by decide)
  · exact absurd (hdig '+' (by simp)) (by decide)
  · exact key

/-- "invalid number" is reported exactly when some character is not a digit and
the digits before it fit into 64 bits. -/
theorem invalid_iff (s : List Char) :
    diagnostic s = some (some "invalid number") ↔
      ∃ pre c post, s = pre ++ c :: post ∧ (∀ d ∈ pre, IsDigit d) ∧ ¬ IsDigit c
        ∧ decimalValue pre < 2 ^ 64 := by
  unfold diagnostic parseInt
  by_cases hs : s = []
  · simp [hs]
  · simp only [hs, if_false, Option.map_some, Option.some.injEq]
    have := parseLoop_invalid s 0
    constructor
    · intro h
      have he : parseLoop s 0 = .error .invalidDigit := by
        cases hp : parseLoop s 0 with
        | ok v => simp [hp] at h
        | error e => cases e <;> simp_all
      obtain ⟨pre, c, post, h1, h2, h3, h4⟩ := this.1 he
      refine ⟨pre, c, post, h1, h2, h3, ?_⟩
      rw [decimalValue_eq_horner]
      by_cases hp : pre = []
      · subst hp; decide
      · exact h4 hp
    · rintro ⟨pre, c, post, h1, h2, h3, h4⟩
      rw [decimalValue_eq_horner] at h4
      have he := this.2 ⟨pre, c, post, h1, h2, h3, fun _ => h4⟩
      simp [he]

/-- "number is too large" is reported exactly when a prefix of digits already
denotes 2^64 or more. -/
theorem overflow_iff (s : List Char) :
    diagnostic s = some (some "number is too large") ↔
      ∃ pre post, s = pre ++ post ∧ (∀ d ∈ pre, IsDigit d) ∧ 2 ^ 64 ≤ decimalValue pre := by
  by_cases hs : s = []
  · subst hs
    simp [diagnostic, parseInt, decimalValue]
  constructor
  · intro h
    by_cases hall : ∀ c ∈ s, IsDigit c
    · refine ⟨s, [], by simp, hall, ?_⟩
      apply Nat.le_of_not_lt
      intro hlt
      have : diagnostic s = some none := (accepted_iff s).2 ⟨hs, hall, hlt⟩
      rw [this] at h; simp at h
    · -- first bad character
      have : ∃ pre c post, s = pre ++ c :: post ∧ (∀ d ∈ pre, IsDigit d) ∧ ¬ IsDigit c := by
        clear h hs
        induction s with
        | nil => simp at hall
        | cons x xs ih =>
          by_cases hx : IsDigit x
          · have : ¬ ∀ c ∈ xs, IsDigit c := by
              intro h; apply hall; intro c hc
              rcases List.mem_cons.1 hc with rfl | h'
              · exact hx
              · exact h _ h'
            obtain ⟨pre, c, post, h1, h2, h3⟩ := ih this
            refine ⟨x :: pre, c, post, by simp [h1], ?_, h3⟩
            intro d hd
            rcases List.mem_cons.1 hd with rfl | h'
            · exact hx
            · exact h2 _ h'
          · exact ⟨[], x, xs, rfl, by simp, hx⟩
      obtain ⟨pre, c, post, h1, h2, h3⟩ := this
      refine ⟨pre, c :: post, h1, h2, ?_⟩
      apply Nat.le_of_not_lt
      intro hlt
      have := (invalid_iff s).2 ⟨pre, c, post, h1, h2, h3, hlt⟩
      rw [this] at h; simp at h
  · rintro ⟨pre, post, rfl, h2, h3⟩
    have hna : diagnostic (pre ++ post) ≠ some none := by
      intro h
      obtain ⟨-, -, hlt⟩ := (accepted_iff _).1 h
      rw [decimalValue_eq_horner] at h3 hlt
      have happ : ∀ (a b : List Char) (n : Nat), horner (a ++ b) n = horner b (horner a n) := by
        intro a
        induction a with
        | nil => intros; rfl
        | cons x xs ih => intro b n; simp only [List.cons_append, horner, ih]
      rw [happ] at hlt
      have := horner_mono post (horner pre 0)
      omega
    have hni : diagnostic (pre ++ post) ≠ some (some "invalid number") := by
      intro h
      obtain ⟨pre', c, post', h1, h2', h3', h4⟩ := (invalid_iff _).1 h
      -- pre is all digits and c is not, so pre is a prefix of pre'
      have hpre : ∃ t, pre' = pre ++ t := by
        rcases List.append_eq_append_iff.1 h1 with ⟨t, ht1, ht2⟩ | ⟨t, ht1, ht2⟩
        · exact ⟨t, ht1⟩
        · cases t with
          | nil => exact ⟨[], by simpa using ht1.symm⟩
          | cons y ys =>
            simp at ht2
            have := h2 y (by simp [ht1])
            rw [← ht2.1] at this
            exact absurd this h3'
      obtain ⟨t, rfl⟩ := hpre
      rw [decimalValue_eq_horner] at h3 h4
      have happ : ∀ (a b : List Char) (n : Nat), horner (a ++ b) n = horner b (horner a n) := by
        intro a
        induction a with
        | nil => intros; rfl
        | cons x xs ih => intro b n; simp only [List.cons_append, horner, ih]
      rw [happ] at h4
      have := horner_mono t (horner pre 0)
      omega
    revert hna hni
    unfold diagnostic parseInt
    rw [if_neg hs]
    cases parseLoop (pre ++ post) 0 with
    | ok v => simp
    | error e => cases e <;> simp

-- Non-vacuity: concrete literals on both sides of the boundary.
example : Accepted "18446744073709551615".toList := by
  unfold Accepted; decide
example : codegenParse "0042".toList = some 42 := by decide
example : diagnostic "18446744073709551616".toList = some (some "number is too large") := by decide
example : diagnostic "12a".toList = some (some "invalid number") := by decide

end Tic.Numck
