import Verif.EvalLemmas
import Verif.PropNumck
import Verif.PropNames
/-
C05, C06, C10: integer operators, string builtins, `iterate`.
-/
namespace Tic.Core

/-! ### C05 -/

/-- Specification of the operators on the integers they denote. -/
def opSpec (o : Op) (a b : Nat) : Val :=
  match o with
  | .add => .int (UInt64.ofNat ((a + b) % 2 ^ 64))
  | .subtract => .int (UInt64.ofNat ((2 ^ 64 + a - b) % 2 ^ 64))
  | .multiply => .int (UInt64.ofNat (a * b % 2 ^ 64))
  | .divide => .int (UInt64.ofNat (if b = 0 then 0 else a / b))
  | .modulo => .int (UInt64.ofNat (if b = 0 then a else a % b))
  | .less => .bool (decide (a < b))
  | .lessEq => .bool (decide (a ≤ b))
  | .greater => .bool (decide (a > b))
  | .greaterEq => .bool (decide (a ≥ b))
  | .equal => .bool (decide (a = b))
  | .notEqual => .bool (decide (a ≠ b))

theorem u64_zero_iff (b : UInt64) : b = 0 ↔ b.toNat = 0 :=
  ⟨fun h => by rw [h]; rfl, fun h => UInt64.toNat_inj.1 h⟩

theorem evalOp_spec (o : Op) (a b : UInt64) : evalOp o a b = opSpec o a.toNat b.toNat := by
  have ha := a.toNat_lt
  have hb := b.toNat_lt
  cases o <;> simp only [evalOp, opSpec, Val.int.injEq, Val.bool.injEq]
  · apply UInt64.toNat_inj.1; simp [UInt64.toNat_add]
  · apply UInt64.toNat_inj.1
    rw [UInt64.toNat_sub]
    simp only [UInt64.toNat_ofNat']
    omega
  · apply UInt64.toNat_inj.1; simp [UInt64.toNat_mul]
  · by_cases hz : b = 0
    · rw [if_pos hz, if_pos ((u64_zero_iff b).1 hz)]; rfl
    · rw [if_neg hz, if_neg (fun h => hz ((u64_zero_iff b).2 h))]
      apply UInt64.toNat_inj.1
      rw [UInt64.toNat_div, UInt64.toNat_ofNat', Nat.mod_eq_of_lt]
      exact Nat.lt_of_le_of_lt (Nat.div_le_self _ _) ha
  · by_cases hz : b = 0
    · rw [if_pos hz, if_pos ((u64_zero_iff b).1 hz)]
      apply UInt64.toNat_inj.1
      rw [UInt64.toNat_ofNat', Nat.mod_eq_of_lt ha]
    · rw [if_neg hz, if_neg (fun h => hz ((u64_zero_iff b).2 h))]
      apply UInt64.toNat_inj.1
      rw [UInt64.toNat_mod, UInt64.toNat_ofNat']
      exact (Nat.mod_eq_of_lt (Nat.lt_of_le_of_lt (Nat.mod_le _ _) ha)).symm
  · simp [UInt64.lt_iff_toNat_lt]
  · simp [UInt64.le_iff_toNat_le]
  · simp [UInt64.lt_iff_toNat_lt]
  · simp [UInt64.le_iff_toNat_le]
  · simp [UInt64.toNat_inj]
  · simp [UInt64.toNat_inj]

/-- **C05.** Applying any operator to any two integers, in any environment,
gives the specified result; it never traps or aborts.  (The operands may be
arbitrary expressions that evaluate to integers.) -/
theorem operators_total {n : Nat} {ρ : Env} {ea eb : Expr} {a b : UInt64} (o : Op)
    (ha : eval n ρ ea = .ok (.int a)) (hb : eval n ρ eb = .ok (.int b)) :
    eval (n + 1) ρ (.op ea o eb) = .ok (opSpec o a.toNat b.toNat) := by
  simp only [eval, ha, hb, Res.bind_ok, Val.intoInt, evalOp_spec]

/-- **C05.** Quotient and remainder fit together for every divisor, zero included. -/
theorem div_mod_identity (a b : UInt64) : ∃ q r, evalOp .divide a b = .int q ∧ evalOp .modulo a b = .int r ∧
    q * b + r = a ∧ (b ≠ 0 → r < b) := by
  refine ⟨_, _, rfl, rfl, ?_, ?_⟩
  · by_cases hz : b = 0
    · simp [hz]
    · simp only [if_neg hz]
      apply UInt64.toNat_inj.1
      rw [UInt64.toNat_add, UInt64.toNat_mul, UInt64.toNat_div, UInt64.toNat_mod]
      have ha := a.toNat_lt
      have h1 := Nat.div_add_mod a.toNat b.toNat
      rw [Nat.mul_comm] at h1
      have h2 : a.toNat / b.toNat * b.toNat < 2 ^ 64 := by omega
      rw [Nat.mod_eq_of_lt h2, h1, Nat.mod_eq_of_lt ha]
  · intro hz
    simp only [if_neg hz]
    apply UInt64.lt_iff_toNat_lt.2
    rw [UInt64.toNat_mod]
    exact Nat.mod_lt _ (Nat.pos_of_ne_zero fun h => hz ((u64_zero_iff b).2 h))

example : eval 2 [] (.op (.int 3) .subtract (.int 5)) = .ok (.int (UInt64.ofNat (2 ^ 64 - 2))) := by rfl
example : eval 2 [] (.op (.int 7) .modulo (.int 0)) = .ok (.int 7) := by rfl

/-! ### C06 -/

/-- The characters of a byte string of ASCII characters. -/
def chars (s : List UInt8) : List Char := s.map fun b => Char.ofNat b.toNat

theorem chars_intToStr (i : UInt64) : chars (intToStr i) = Names.decimal i.toNat := by
  unfold chars intToStr
  rw [List.map_map]
  have h := (Names.decimal_spec i.toNat).2.2
  conv => rhs; rw [← List.map_id (Names.decimal i.toNat)]
  apply List.map_congr_left
  intro c hc
  have hr := h c hc
  simp only [Function.comp, UInt8.toNat_ofNat', id]
  rw [Nat.mod_eq_of_lt (by omega)]
  exact Char.ofNat_toNat c

theorem decimal_accepted {n : Nat} (hn : n < 2 ^ 64) :
    Numck.Accepted (Names.decimal n) ∧ Numck.decimalValue (Names.decimal n) = n := by
  obtain ⟨h1, h2, h3⟩ := Names.decimal_spec n
  have hv : Numck.decimalValue (Names.decimal n) = n := by
    rw [Numck.decimalValue_eq_horner, ← h1]
    have : ∀ (s : List Char) (a : Nat), Numck.horner s a = s.foldl (fun a c => a * 10 + (c.toNat - 48)) a := by
      intro s
      induction s with
      | nil => intro a; rfl
      | cons c s ih => intro a; simp only [Numck.horner, List.foldl]; exact ih _
    rw [this]
    unfold Names.value
    rw [show List.foldl (fun a c => a * 10 + (c.toNat - 48)) 0 (Names.decimal n) = n from h1]
    exact h1
  refine ⟨(Numck.accepted_iff _).2 ⟨h2, ?_, by rw [hv]; exact hn⟩, hv⟩
  intro c hc
  have := h3 c hc
  constructor
  · show '0'.val ≤ c.val
    exact UInt32.le_iff_toNat_le.2 this.1
  · show c.val ≤ '9'.val
    exact UInt32.le_iff_toNat_le.2 this.2

theorem decimal_head (n : Nat) (hn : 0 < n) : (Names.decimal n).head? ≠ some '0' := by
  induction n using Nat.strongRecOn with
  | ind n ih =>
    unfold Names.decimal
    split
    · rename_i h
      have : ∀ d : Fin 10, 0 < d.val → (some (Names.digitChar d.val)) ≠ some '0' := by decide
      exact this ⟨n, h⟩ hn
    · rename_i h
      have hne := (Names.decimal_spec (n / 10)).2.1
      have : (Names.decimal (n / 10) ++ [Names.digitChar (n % 10)]).head? = (Names.decimal (n / 10)).head? := by
        cases hd : Names.decimal (n / 10) with
        | nil => exact absurd hd hne
        | cons c cs => rfl
      rw [this]
      exact ih (n / 10) (by omega) (by omega)

/-- **C06, string length.** -/
theorem string_length_total {n : Nat} {ρ : Env} {e : Expr} {s : List UInt8} (h : eval n ρ e = .ok (.str s))
    (hlen : s.length < 2 ^ 64) :
    ∃ k : UInt64, eval (n + 1) ρ (.intr .stringLen [e]) = .ok (.int k) ∧ k.toNat = s.length := by
  refine ⟨strLen s, by simp [eval, evalIntr, h, Val.intoStr], ?_⟩
  unfold strLen
  rw [UInt64.toNat_ofNat', Nat.mod_eq_of_lt hlen]

/-- **C06, concatenation.** -/
theorem string_concat_total {n : Nat} {ρ : Env} {e1 e2 : Expr} {s1 s2 : List UInt8}
    (h1 : eval n ρ e1 = .ok (.str s1)) (h2 : eval n ρ e2 = .ok (.str s2)) :
    eval (n + 1) ρ (.intr .stringConcat [e1, e2]) = .ok (.str (s1 ++ s2)) := by
  simp [eval, evalIntr, h1, h2, Val.intoStr]

/-- **C06, char-at**: the byte at the index, 0 past the end. -/
theorem string_char_at_total {n : Nat} {ρ : Env} {ei es : Expr} {i : UInt64} {s : List UInt8}
    (hi : eval n ρ ei = .ok (.int i)) (hs : eval n ρ es = .ok (.str s)) :
    ∃ c : UInt64, eval (n + 1) ρ (.intr .stringCharAt [ei, es]) = .ok (.int c) ∧
      (∀ h : i.toNat < s.length, c.toNat = (s[i.toNat]).toNat) ∧ (s.length ≤ i.toNat → c = 0) := by
  refine ⟨strCharAt i s, by simp [eval, evalIntr, hi, hs, Val.intoStr, Val.intoInt], ?_, ?_⟩
  · intro h
    unfold strCharAt
    have := (s[i.toNat]).toNat_lt
    simp only [List.getElem?_eq_getElem h, Option.getD_some, UInt64.toNat_ofNat']
    omega
  · intro h
    unfold strCharAt
    rw [List.getElem?_eq_none h]
    rfl

/-- **C06, substring**: the result starts at `start` (empty when `start` is past
the end), it is not longer than `len`, and it is as long as possible. -/
theorem string_substring_total {n : Nat} {ρ : Env} {e1 e2 e3 : Expr} {start len : UInt64} {s : List UInt8}
    (h1 : eval n ρ e1 = .ok (.int start)) (h2 : eval n ρ e2 = .ok (.int len)) (h3 : eval n ρ e3 = .ok (.str s)) :
    ∃ t, eval (n + 1) ρ (.intr .stringSubstring [e1, e2, e3]) = .ok (.str t) ∧
      t.length = min len.toNat (s.length - start.toNat) ∧
      ∀ k, k < t.length → t[k]? = s[start.toNat + k]? := by
  refine ⟨strSubstring start len s, by simp [eval, evalIntr, h1, h2, h3, Val.intoStr, Val.intoInt], ?_, ?_⟩
  · unfold strSubstring
    simp only
    split <;> split <;> simp_all <;> omega
  · intro k hk
    unfold strSubstring at hk ⊢
    simp only at hk ⊢
    by_cases ha : start.toNat ≤ s.length
    · simp only [if_pos ha, List.length_drop] at hk ⊢
      split
      · rename_i hb
        rw [if_pos hb] at hk
        simp only [List.length_take, List.length_drop] at hk
        rw [List.getElem?_take, if_pos (by omega), List.getElem?_drop]
      · rw [List.getElem?_drop]
    · simp only [if_neg ha] at hk
      split at hk <;> simp at hk

/-- **C06, from-char**: one byte, the value modulo 256. -/
theorem string_from_char_total {n : Nat} {ρ : Env} {e : Expr} {i : UInt64} (h : eval n ρ e = .ok (.int i)) :
    ∃ b : UInt8, eval (n + 1) ρ (.intr .stringFromChar [e]) = .ok (.str [b]) ∧ b.toNat = i.toNat % 256 := by
  refine ⟨UInt8.ofNat i.toNat, by simp [eval, evalIntr, h, Val.intoInt, strFromChar], ?_⟩
  simp

/-- **C06, int-to-string**: the printed form is a number literal that the compiler
accepts and reads back as the same integer; it has no leading zeros, and
different integers are printed differently. -/
theorem int_to_string_reads_back {n : Nat} {ρ : Env} {e : Expr} {i : UInt64} (h : eval n ρ e = .ok (.int i)) :
    ∃ s, eval (n + 1) ρ (.intr .intToString [e]) = .ok (.str s) ∧
      Numck.Accepted (chars s) ∧ Numck.codegenParse (chars s) = some i.toNat ∧
      Numck.decimalValue (chars s) = i.toNat ∧ (i ≠ 0 → (chars s).head? ≠ some '0') := by
  refine ⟨intToStr i, by simp [eval, evalIntr, h, Val.intoInt], ?_⟩
  rw [chars_intToStr]
  obtain ⟨h1, h2⟩ := decimal_accepted i.toNat_lt
  refine ⟨h1, ?_, h2, ?_⟩
  · rw [Numck.accepted_codegen_value _ h1, h2]
  · intro hi
    exact decimal_head _ (Nat.pos_of_ne_zero fun hz => hi ((u64_zero_iff i).2 hz))

example : eval 2 [] (.intr .stringSubstring [.int 1, .int 100, .str [97, 98, 99]]) = .ok (.str [98, 99]) := by rfl
example : eval 2 [] (.intr .stringSubstring [.int 7, .int 1, .str [97, 98, 99]]) = .ok (.str []) := by rfl

/-! ### C10 -/

/-- The code generated for the `iterate` builtin, `ticc/src/codegen/gen_core.rs:625-693`. -/
def iterateIntrinsic (a : TyVar) (n f x go n2 x2 : Name) : Expr :=
  .pi a (.lam [(n, .int)] (.lam [(f, .fn [.var a] (.var a))] (.lam [(x, .var a)]
    (.letrec go (.fn [.int, .var a] (.var a))
      (.lam [(n2, .int), (x2, .var a)]
        (.ite (.op (.name n2) .lessEq (.int 0)) (.name x2)
          (.call (.name go) [.op (.name n2) .subtract (.int 1), .call (.name f) [.name x2]])))
      (.call (.name go) [.name n, .name x])))))

/-- Specification: apply `ap` exactly `k` times, stopping at the first outcome
that is not a value. -/
def applyTimes (ap : Val → Res Val) : Nat → Val → Res Val
  | 0, v => .ok v
  | k + 1, v => (ap v).bind (applyTimes ap k)

/-- Body of the loop. -/
def iterBody (f go n2 x2 : Name) : Expr :=
  .ite (.op (.name n2) .lessEq (.int 0)) (.name x2)
    (.call (.name go) [.op (.name n2) .subtract (.int 1), .call (.name f) [.name x2]])

theorem iterBody_eval {f go n2 x2 : Name} (hd : [f, go, n2, x2].Nodup) {ρ : Env} {fv v : Val} {k : UInt64}
    (hf : lookup f ρ = .ok fv) (hfn : fv.isFn = true) (N : Nat) :
    eval (N + 4) ((go, .rclo ρ go [n2, x2] (iterBody f go n2 x2)) :: (x2, v) :: (n2, .int k) :: ρ) (iterBody f go n2 x2) =
      if k.toNat = 0 then .ok v
      else (applyFn (eval (N + 1)) fv [v]).bind fun v' =>
        eval (N + 2) ((go, .rclo ρ go [n2, x2] (iterBody f go n2 x2)) :: (x2, v') :: (n2, .int (k - 1)) :: ρ) (iterBody f go n2 x2) := by
  simp only [List.nodup_cons, List.mem_cons, List.not_mem_nil, or_false, not_or] at hd
  obtain ⟨⟨h1, h2, h3⟩, ⟨h4, h5⟩, h6, -⟩ := hd
  have hn2 : lookup n2 ((go, Val.rclo ρ go [n2, x2] (iterBody f go n2 x2)) :: (x2, v) :: (n2, .int k) :: ρ) = .ok (.int k) := by
    simp [lookup, h4, Ne.symm h6]
  have hx2 : lookup x2 ((go, Val.rclo ρ go [n2, x2] (iterBody f go n2 x2)) :: (x2, v) :: (n2, .int k) :: ρ) = .ok v := by
    simp [lookup, h5]
  have hf' : lookup f ((go, Val.rclo ρ go [n2, x2] (iterBody f go n2 x2)) :: (x2, v) :: (n2, .int k) :: ρ) = .ok fv := by
    simp [lookup, Ne.symm h1, Ne.symm h2, Ne.symm h3, hf]
  have hgo : lookup go ((go, Val.rclo ρ go [n2, x2] (iterBody f go n2 x2)) :: (x2, v) :: (n2, .int k) :: ρ) =
      .ok (.rclo ρ go [n2, x2] (iterBody f go n2 x2)) := by simp [lookup]
  generalize hρ' : ((go, Val.rclo ρ go [n2, x2] (iterBody f go n2 x2)) :: (x2, v) :: (n2, .int k) :: ρ : Env) = ρ' at *
  have hc : eval (N + 3) ρ' (.op (.name n2) .lessEq (.int 0)) = .ok (.bool (decide (k.toNat = 0))) := by
    simp only [eval, hn2, Res.bind_ok, Val.intoInt, evalOp]
    congr 2
    have : (k ≤ 0) ↔ k.toNat = 0 := by rw [UInt64.le_iff_toNat_le]; simp
    simp [this]
  have step : eval (N + 4) ρ' (iterBody f go n2 x2) =
      (if decide (k.toNat = 0) = true then eval (N + 3) ρ' (.name x2) else
        eval (N + 3) ρ' (.call (.name go) [.op (.name n2) .subtract (.int 1), .call (.name f) [.name x2]])) := by
    show (eval (N + 3) ρ' (.op (.name n2) .lessEq (.int 0))).bind _ = _
    rw [hc]; rfl
  rw [step]
  by_cases hk : k.toNat = 0
  · simp [hk, eval, hx2]
  · simp only [hk, decide_false, if_false, Bool.false_eq_true]
    have hop : eval (N + 2) ρ' (.op (.name n2) .subtract (.int 1)) = .ok (.int (k - 1)) := by
      simp only [eval, hn2, Res.bind_ok, Val.intoInt, evalOp]
    have hcall : eval (N + 2) ρ' (.call (.name f) [.name x2]) = applyFn (eval (N + 1)) fv [v] := by
      rw [eval_call, eval_name, hf', Res.bind_ok, if_pos hfn]
      simp only [evalList, eval_name, hx2, Res.bind_ok]
    rw [eval_call, eval_name, hgo, Res.bind_ok, if_pos (show Val.isFn (.rclo ρ go [n2, x2] (iterBody f go n2 x2)) = true from rfl)]
    simp only [evalList, hop, hcall, Res.bind_ok]
    cases applyFn (eval (N + 1)) fv [v] with
    | ok v' => rfl
    | trap m => rfl
    | panic => rfl
    | timeout => rfl

theorem iter_forward {f go n2 x2 : Name} (hd : [f, go, n2, x2].Nodup) {ρ : Env} {fv : Val}
    (hf : lookup f ρ = .ok fv) (hfn : fv.isFn = true) {m : Nat} {r : Res Val} (hr : r ≠ .timeout) :
    ∀ (k : Nat) (kk : UInt64) (v : Val), kk.toNat = k → applyTimes (fun v => applyFn (eval m) fv [v]) k v = r →
      ∃ N, ∀ M, N ≤ M → eval M ((go, .rclo ρ go [n2, x2] (iterBody f go n2 x2)) :: (x2, v) :: (n2, .int kk) :: ρ)
        (iterBody f go n2 x2) = r := by
  intro k
  induction k with
  | zero =>
    intro kk v hk h
    refine ⟨4, fun M hM => ?_⟩
    obtain ⟨N, rfl⟩ : ∃ N, M = N + 4 := ⟨M - 4, by omega⟩
    rw [iterBody_eval hd hf hfn, if_pos hk]
    exact h
  | succ k ih =>
    intro kk v hk h
    have hk1 : (kk - 1).toNat = k := by
      rw [UInt64.toNat_sub]
      have := kk.toNat_lt
      simp; omega
    simp only [applyTimes] at h
    cases ha : applyFn (eval m) fv [v] with
    | timeout => rw [ha] at h; exact absurd h.symm hr
    | trap msg =>
      rw [ha] at h
      refine ⟨m + 4, fun M hM => ?_⟩
      obtain ⟨N, rfl⟩ : ∃ N, M = N + 4 := ⟨M - 4, by omega⟩
      rw [iterBody_eval hd hf hfn, if_neg (by omega), applyFn_mono (by omega) ha (by simp)]
      exact h
    | panic =>
      rw [ha] at h
      refine ⟨m + 4, fun M hM => ?_⟩
      obtain ⟨N, rfl⟩ : ∃ N, M = N + 4 := ⟨M - 4, by omega⟩
      rw [iterBody_eval hd hf hfn, if_neg (by omega), applyFn_mono (by omega) ha (by simp)]
      exact h
    | ok v' =>
      rw [ha] at h
      obtain ⟨N0, hN0⟩ := ih (kk - 1) v' hk1 h
      refine ⟨m + N0 + 4, fun M hM => ?_⟩
      obtain ⟨N, rfl⟩ : ∃ N, M = N + 4 := ⟨M - 4, by omega⟩
      rw [iterBody_eval hd hf hfn, if_neg (by omega), applyFn_mono (m := N + 1) (by omega) ha (by simp)]
      exact hN0 (N + 2) (by omega)

theorem iter_backward {f go n2 x2 : Name} (hd : [f, go, n2, x2].Nodup) {ρ : Env} {fv : Val}
    (hf : lookup f ρ = .ok fv) (hfn : fv.isFn = true) :
    ∀ (k : Nat) (kk : UInt64) (v : Val) (r : Res Val) (N : Nat), r ≠ .timeout → kk.toNat = k →
      eval N ((go, .rclo ρ go [n2, x2] (iterBody f go n2 x2)) :: (x2, v) :: (n2, .int kk) :: ρ)
        (iterBody f go n2 x2) = r →
      applyTimes (fun v => applyFn (eval N) fv [v]) k v = r := by
  intro k
  induction k with
  | zero =>
    intro kk v r N hr hk h
    have h4 := eval_mono (show N ≤ N + 4 by omega) h hr
    rw [iterBody_eval hd hf hfn, if_pos hk] at h4
    exact h4
  | succ k ih =>
    intro kk v r N hr hk h
    have hk1 : (kk - 1).toNat = k := by
      rw [UInt64.toNat_sub]
      have := kk.toNat_lt
      simp; omega
    -- the body needs at least four steps
    have h4 : 4 ≤ N := by
      apply Classical.byContradiction
      intro hlt
      have hex : N = 0 ∨ N = 1 ∨ N = 2 ∨ N = 3 := by omega
      have hl : eval N ((go, .rclo ρ go [n2, x2] (iterBody f go n2 x2)) :: (x2, v) :: (n2, .int kk) :: ρ)
        (iterBody f go n2 x2) = .timeout := by
        simp only [List.nodup_cons, List.mem_cons, List.not_mem_nil, or_false, not_or] at hd
        obtain ⟨⟨h1, h2, h3⟩, ⟨h4, h5⟩, h6, -⟩ := hd
        have : ¬ kk ≤ 0 := by rw [UInt64.le_iff_toNat_le]; simp; omega
        have hk0 : ¬ kk = 0 := fun h => by subst h; simp at hk
        rcases hex with rfl | rfl | rfl | rfl <;>
          simp [eval, iterBody, lookup, Res.bind, Val.intoInt, Val.intoBool, evalOp, h4, h5, Ne.symm h6, hk0, evalList, Val.isFn]
      exact hr (h.symm.trans hl)
    obtain ⟨N, rfl⟩ : ∃ N', N = N' + 4 := ⟨N - 4, by omega⟩
    rw [iterBody_eval hd hf hfn, if_neg (by omega)] at h
    simp only [applyTimes]
    cases ha : applyFn (eval (N + 1)) fv [v] with
    | timeout => rw [ha] at h; exact absurd h.symm hr
    | trap msg => rw [ha] at h; rw [applyFn_mono (m := N + 4) (by omega) ha (by simp)]; exact h
    | panic => rw [ha] at h; rw [applyFn_mono (m := N + 4) (by omega) ha (by simp)]; exact h
    | ok v' =>
      rw [ha] at h
      rw [applyFn_mono (m := N + 4) (by omega) ha (by simp)]
      simp only [Res.bind_ok] at h ⊢
      exact ih (kk - 1) v' r (N + 4) hr hk1 (eval_mono (by omega) h hr)

theorem iterate_call (a : TyVar) {n f x go n2 x2 : Name} (hd : [n, f, x, go, n2, x2].Nodup) {ρ : Env} {en ef ex : Expr}
    {k : UInt64} {fv v : Val} {m : Nat} (hn : eval m ρ en = .ok (.int k)) (hf : eval m ρ ef = .ok fv) (hx : eval m ρ ex = .ok v)
    (M : Nat) (hM : m ≤ M) :
    eval (M + 8) ρ (.call (.call (.call (iterateIntrinsic a n f x go n2 x2) [en]) [ef]) [ex]) =
      eval (M + 5) ((go, .rclo ((x, v) :: (f, fv) :: (n, .int k) :: ρ) go [n2, x2] (iterBody f go n2 x2)) ::
        (x2, v) :: (n2, .int k) :: (x, v) :: (f, fv) :: (n, .int k) :: ρ) (iterBody f go n2 x2) := by
  simp only [List.nodup_cons, List.mem_cons, List.not_mem_nil, or_false, not_or] at hd
  obtain ⟨⟨a1, a2, a3, a4, a5⟩, ⟨b1, b2, b3, b4⟩, ⟨c1, c2, c3⟩, ⟨d1, d2⟩, e1, -⟩ := hd
  have hn' := eval_mono_ok (show m ≤ M + 5 by omega) hn
  have hf' := eval_mono_ok (show m ≤ M + 6 by omega) hf
  have hx' := eval_mono_ok (show m ≤ M + 7 by omega) hx
  have e0 : eval (M + 5) ρ (iterateIntrinsic a n f x go n2 x2) = .ok (.clo ρ [n]
      (.lam [(f, .fn [.var a] (.var a))] (.lam [(x, .var a)]
    (.letrec go (.fn [.int, .var a] (.var a))
      (.lam [(n2, .int), (x2, .var a)] (iterBody f go n2 x2))
      (.call (.name go) [.name n, .name x]))))) := rfl
  have e1 : eval (M + 6) ρ (.call (iterateIntrinsic a n f x go n2 x2) [en]) = .ok (.clo ((n, .int k) :: ρ) [f]
      (.lam [(x, .var a)] (.letrec go (.fn [.int, .var a] (.var a))
      (.lam [(n2, .int), (x2, .var a)] (iterBody f go n2 x2))
      (.call (.name go) [.name n, .name x])))) := by
    rw [eval_call, e0]; simp only [Res.bind_ok, evalList, hn']; rfl
  have e2 : eval (M + 7) ρ (.call (.call (iterateIntrinsic a n f x go n2 x2) [en]) [ef]) =
      .ok (.clo ((f, fv) :: (n, .int k) :: ρ) [x] (.letrec go (.fn [.int, .var a] (.var a))
      (.lam [(n2, .int), (x2, .var a)] (iterBody f go n2 x2))
      (.call (.name go) [.name n, .name x]))) := by
    rw [eval_call, e1]; simp only [Res.bind_ok, evalList, hf']; rfl
  rw [eval_call, e2]
  simp only [Res.bind_ok, evalList, hx']
  have l1 : lookup n ((go, .rclo ((x, v) :: (f, fv) :: (n, .int k) :: ρ) go [n2, x2] (iterBody f go n2 x2)) ::
      (x, v) :: (f, fv) :: (n, .int k) :: ρ) = .ok (.int k) := by
    simp [lookup, Ne.symm a1, Ne.symm a2, Ne.symm a3]
  have l2 : lookup x ((go, .rclo ((x, v) :: (f, fv) :: (n, .int k) :: ρ) go [n2, x2] (iterBody f go n2 x2)) ::
      (x, v) :: (f, fv) :: (n, .int k) :: ρ) = .ok v := by
    simp [lookup, Ne.symm c1]
  have l3 : lookup go ((go, .rclo ((x, v) :: (f, fv) :: (n, .int k) :: ρ) go [n2, x2] (iterBody f go n2 x2)) ::
      (x, v) :: (f, fv) :: (n, .int k) :: ρ) = .ok (.rclo ((x, v) :: (f, fv) :: (n, .int k) :: ρ) go [n2, x2] (iterBody f go n2 x2)) := by
    simp [lookup]
  show eval (M + 6) ((go, .rclo ((x, v) :: (f, fv) :: (n, .int k) :: ρ) go [n2, x2] (iterBody f go n2 x2)) ::
      (x, v) :: (f, fv) :: (n, .int k) :: ρ) (.call (.name go) [.name n, .name x]) = _
  rw [eval_call, eval_name, l3]
  simp only [Res.bind_ok, evalList, eval_name, l1, l2]
  rfl

/-- **C10.** Calling `iterate k f x` (with arbitrary argument expressions, in an
arbitrary environment) ends with an outcome exactly when applying `f` `k` times
to `x` ends with that outcome: `f` is applied exactly `k` times, for every 64-bit
`k`; `k = 0` returns `x` without calling `f`; if some application traps, so does
`iterate`. -/
theorem iterate_applies_n_times (a : TyVar) {n f x go n2 x2 : Name} (hd : [n, f, x, go, n2, x2].Nodup)
    {ρ : Env} {en ef ex : Expr} {k : UInt64} {fv v : Val} {m : Nat}
    (hn : eval m ρ en = .ok (.int k)) (hf : eval m ρ ef = .ok fv) (hfn : fv.isFn = true)
    (hx : eval m ρ ex = .ok v) (r : Res Val) (hr : r ≠ .timeout) :
    (∃ M, eval M ρ (.call (.call (.call (iterateIntrinsic a n f x go n2 x2) [en]) [ef]) [ex]) = r) ↔
    (∃ M, applyTimes (fun v => applyFn (eval M) fv [v]) k.toNat v = r) := by
  have hd' : [f, go, n2, x2].Nodup := by
    refine hd.sublist ?_
    refine .cons _ (.cons_cons _ (.cons _ (.refl _)))
  have hlf : lookup f ((x, v) :: (f, fv) :: (n, .int k) :: ρ) = .ok fv := by
    simp only [List.nodup_cons, List.mem_cons, List.not_mem_nil, or_false, not_or] at hd
    simp [lookup, Ne.symm hd.2.1.1]
  constructor
  · rintro ⟨M, hM⟩
    have hM' := eval_mono (show M ≤ (m + M) + 8 by omega) hM hr
    rw [iterate_call a hd hn hf hx (m + M) (by omega)] at hM'
    exact ⟨_, iter_backward hd' hlf hfn k.toNat k v r _ hr rfl hM'⟩
  · rintro ⟨M, hM⟩
    obtain ⟨N, hN⟩ := iter_forward hd' hlf hfn hr k.toNat k v rfl hM
    refine ⟨(m + N) + 8, ?_⟩
    rw [iterate_call a hd hn hf hx (m + N) (by omega)]
    exact hN _ (by omega)

/-- Non-vacuity: `iterate 5 (\y -> y + 3) 10 = 25`. -/
example : (eval 100 [] (.call (.call (.call (iterateIntrinsic 0 0 1 2 3 4 5) [.int 5])
    [.lam [(6, .int)] (.op (.name 6) .add (.int 3))]) [.int 10])).bind Val.intoInt = .ok 25 := by
  decide +kernel

end Tic.Core
