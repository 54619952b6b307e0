import Verif.BytecodeMachine
import Verif.ArgsFirst
import Verif.LeJ
/-
The bytecode machine does what evaluation with arguments first does.
-/
namespace Tic.Core.Bc

/-! ## Values -/

/-- The function with parameters `ps`, captured names `cn` and body `b` is compiled to the code at position `i`. -/
structure FnAt (P : LP) (ps : List Name) (r : Option Name) (cn : List Name) (b : Expr) (i n0 : Nat) (st s1 : CS)
    (code : List BOp) : Prop where
  start : fnStart (n0 + 2) st.fns ps r cn = some st
  comp : comp ⟨st.size, n0 + 1, ps, r⟩ true b st = some (code, s1)
  fns : s1.fns <+: P.fns
  code : ∃ u, CodeAt P i (fnCode n0 (n0 + 1) ps.length cn.length u code)
  good : FnGood ps r cn b
  size : sizeOf b ≤ P.D
  use : P.isFn i

/-- A value and what represents it in the machine. -/
inductive BRel (P : LP) : Val → TVal → Prop
  | int (x) : BRel P (.int x) (.int x)
  | bool (x) : BRel P (.bool x) (.bool x)
  | str (x) : BRel P (.str x) (.str x)
  | comp {c tag fs ws} : HasTag P.st c tag → fs.length = ws.length → fs.length ≤ maxFields →
      (∀ (j : Nat) v w, fs[j]? = some v → ws[j]? = some w → BRel P v w) → BRel P (.comp c fs) (.obj tag ws)
  | clo {ρ ps b cn i n0 st s1 code caps} : FnAt P ps none cn b i n0 st s1 code → caps.length = cn.length →
      (∀ (j : Nat) x, cn[j]? = some x → ∃ v, lookup x ρ = .ok v) →
      (∀ (j : Nat) x v w, cn[j]? = some x → lookup x ρ = .ok v → caps[j]? = some w → BRel P v w) →
      BRel P (.clo ρ ps b) (.obj (P.clo i) caps)
  | rclo {ρ f ps b cn i n0 st s1 code caps} : FnAt P ps (some f) cn b i n0 st s1 code → caps.length = cn.length →
      (∀ (j : Nat) x, cn[j]? = some x → ∃ v, lookup x ρ = .ok v) →
      (∀ (j : Nat) x v w, cn[j]? = some x → lookup x ρ = .ok v → caps[j]? = some w → BRel P v w) →
      BRel P (.rclo ρ f ps b) (.obj (P.clo i) caps)

theorem clo_plain {P : LP} (hP : P.OK) {i : Nat} (h : P.isFn i) {caps : List TVal} : plain (.obj (P.clo i) caps) := by
  have e := hP.clo_div h
  show _ < 2 ^ 64
  rw [tagSize] at e
  omega

theorem BRel.plain {P : LP} (hP : P.OK) {v : Val} {w : TVal} (h : BRel P v w) : plain w := by
  cases h with
  | comp h1 =>
    obtain ⟨i, h1, rfl⟩ := h1
    have := hP.ctors
    have hi := (List.getElem?_eq_some_iff.1 (indexOf_get h1)).1
    have e := objTag_div (a := i) (by omega)
    show i ||| objTag < 2 ^ 64
    rw [tagSize] at e
    omega
  | clo h1 => exact clo_plain hP h1.use
  | rclo h1 => exact clo_plain hP h1.use
  | _ => trivial

/-- Captured values. -/
structure BCaps (P : LP) (cn : List Name) (ρ : Env) (caps : List TVal) : Prop where
  len : caps.length = cn.length
  has : ∀ (j : Nat) x, cn[j]? = some x → ∃ v w, lookup x ρ = .ok v ∧ caps[j]? = some w ∧ BRel P v w

theorem BCaps.plain {P : LP} (hP : P.OK) {cn : List Name} {ρ : Env} {caps : List TVal} (h : BCaps P cn ρ caps) :
    ∀ w ∈ caps, plain w := by
  intro w hw
  obtain ⟨j, hj⟩ := List.mem_iff_getElem?.1 hw
  have hlt := (List.getElem?_eq_some_iff.1 hj).1
  obtain ⟨v, w', _, h2, h3⟩ := h.has j _ (List.getElem?_eq_getElem (by have := h.len; omega))
  rw [hj] at h2
  cases h2
  exact h3.plain hP

theorem BCaps.mk' {P : LP} {cn : List Name} {ρ : Env} {caps : List TVal} (h0 : caps.length = cn.length)
    (h1 : ∀ (j : Nat) x, cn[j]? = some x → ∃ v, lookup x ρ = .ok v)
    (h2 : ∀ (j : Nat) x v w, cn[j]? = some x → lookup x ρ = .ok v → caps[j]? = some w → BRel P v w) : BCaps P cn ρ caps := by
  refine ⟨h0, fun j x hj => ?_⟩
  obtain ⟨v, hv⟩ := h1 j x hj
  have hlt := (List.getElem?_eq_some_iff.1 hj).1
  have hw : caps[j]? = some caps[j] := List.getElem?_eq_getElem (by omega)
  exact ⟨v, _, hv, hw, h2 j x v _ hj hv hw⟩

theorem BCaps.rel {P : LP} {cn : List Name} {ρ : Env} {caps : List TVal} (h : BCaps P cn ρ caps) :
    (∀ (j : Nat) x, cn[j]? = some x → ∃ v, lookup x ρ = .ok v) ∧
    (∀ (j : Nat) x v w, cn[j]? = some x → lookup x ρ = .ok v → caps[j]? = some w → BRel P v w) := by
  constructor
  · intro j x hj
    obtain ⟨v, w, h1, h2, h3⟩ := h.has j x hj
    exact ⟨v, h1⟩
  · intro j x v w hj hv hw
    obtain ⟨v', w', h1, h2, h3⟩ := h.has j x hj
    rw [hv] at h1
    rw [hw] at h2
    cases h1; cases h2
    exact h3

/-- Lists of values. -/
structure BRels (P : LP) (vs : List Val) (ws : List TVal) : Prop where
  len : vs.length = ws.length
  has : ∀ (j : Nat) v w, vs[j]? = some v → ws[j]? = some w → BRel P v w

theorem BRels.plain {P : LP} (hP : P.OK) {vs ws} (h : BRels P vs ws) : ∀ w ∈ ws, plain w := by
  intro w hw
  obtain ⟨j, hj⟩ := List.mem_iff_getElem?.1 hw
  have hlt := (List.getElem?_eq_some_iff.1 hj).1
  exact (h.has j _ _ (List.getElem?_eq_getElem (by have := h.len; omega)) hj).plain hP

theorem BRels.nil {P : LP} : BRels P [] [] := ⟨rfl, fun j v w h => by simp at h⟩
theorem BRels.cons {P : LP} {v w vs ws} (h : BRel P v w) (hs : BRels P vs ws) : BRels P (v :: vs) (w :: ws) := by
  refine ⟨by simp [hs.len], fun j v' w' h1 h2 => ?_⟩
  cases j with
  | zero =>
    simp only [List.getElem?_cons_zero, Option.some.injEq] at h1 h2
    rw [← h1, ← h2]; exact h
  | succ j => exact hs.has j v' w' (by simpa using h1) (by simpa using h2)

theorem BRels.get {P : LP} {vs ws} (h : BRels P vs ws) {j : Nat} {v : Val} (hv : vs[j]? = some v) :
    ∃ w, ws[j]? = some w ∧ BRel P v w := by
  have hlt := (List.getElem?_eq_some_iff.1 hv).1
  have hw : ws[j]? = some (ws[j]'(by rw [← h.len]; exact hlt)) := List.getElem?_eq_getElem (by rw [← h.len]; exact hlt)
  exact ⟨_, hw, h.has j v _ hv hw⟩

theorem lookup_bindAll_at {x : Name} {v : Val} : ∀ {ps : List Name} {vs : List Val} {ρ : Env} {j : Nat}, ps.Nodup →
    ps[j]? = some x → vs[j]? = some v → lookup x (bindAll ρ ps vs) = .ok v
  | [], _, _, _, _, h, _ => by simp at h
  | _ :: _, [], _, _, _, _, h => by simp at h
  | p :: ps, u :: vs, ρ, j, hn, h1, h2 => by
    rw [List.nodup_cons] at hn
    rw [bindAll]
    cases j with
    | zero =>
      simp only [List.getElem?_cons_zero, Option.some.injEq] at h1 h2
      subst h1; subst h2
      rw [lookup_bindAll_notMem hn.1, lookup, if_pos rfl]
    | succ j => exact lookup_bindAll_at hn.2 (by simpa using h1) (by simpa using h2)

/-! ## Runs -/

/-- The machine started in `s` follows a result `r` of an evaluation with fuel `n`: it reaches a state
satisfying `Q`, or traps with the same message, or goes on for a number of steps that grows with `n`.
Nothing is said about panics. -/
def Sim (P : LP) {α : Type} (Q : α → VM → Prop) (n z : Nat) (r : Res α) (s : VM) : Prop :=
  match r with
  | .ok v => ∃ k t, Steps P k s t ∧ Q v t
  | .trap m => ∃ k t, Steps P k s t ∧ P.step t = .trap m
  | .timeout => ∃ k t, Steps P k s t ∧ n ≤ k * (P.D + 1) + z
  | .panic => True

section
variable {P : LP} {α β : Type} {Q : α → VM → Prop} {Q' : β → VM → Prop} {n n' z z' k : Nat}

theorem Sim.ok {v : α} {s t : VM} (h : Steps P k s t) (hq : Q v t) : Sim P Q n z (.ok v) s := ⟨k, t, h, hq⟩

/-- More steps before. -/
theorem Sim.pre {r : Res α} {s t : VM} (h : Steps P k s t) (hs : Sim P Q n z r t)
    (hn : n' + z ≤ n + k * (P.D + 1) + z') : Sim P Q n' z' r s := by
  cases r with
  | ok v =>
    obtain ⟨k', t', h1, h2⟩ := hs
    exact ⟨_, t', h.trans h1, h2⟩
  | trap m =>
    obtain ⟨k', t', h1, h2⟩ := hs
    exact ⟨_, t', h.trans h1, h2⟩
  | timeout =>
    obtain ⟨k', t', h1, h2⟩ := hs
    refine ⟨_, t', h.trans h1, ?_⟩
    rw [Nat.add_mul]
    omega
  | panic => trivial

theorem Sim.weaken {r : Res α} {s : VM} (hs : Sim P Q n z r s) (hn : n' + z ≤ n + z') : Sim P Q n' z' r s :=
  Sim.pre (k := 0) rfl hs (by omega)

theorem Sim.bind {r : Res α} {f : α → Res β} {s : VM} (h : Sim P Q n z r s)
    (hf : ∀ v t, Q v t → Sim P Q' n z (f v) t) : Sim P Q' n z (r.bind f) s := by
  cases r with
  | ok v =>
    obtain ⟨k, t, h1, h2⟩ := h
    exact Sim.pre h1 (hf v t h2) (by omega)
  | trap m => exact h
  | timeout => exact h
  | panic => trivial

theorem Sim.post {r : Res α} {Q' : α → VM → Prop} {s : VM} (h : Sim P Q n z r s)
    (hf : ∀ v t, Q v t → ∃ k t', Steps P k t t' ∧ Q' v t') : Sim P Q' n z r s := by
  cases r with
  | ok v =>
    obtain ⟨k, t, h1, h2⟩ := h
    obtain ⟨k', t', h3, h4⟩ := hf v t h2
    exact ⟨_, t', h1.trans h3, h4⟩
  | trap m => exact h
  | timeout => exact h
  | panic => trivial
end

/-! ## Frames (lowest slot first) -/

theorem frame_get {S B : List TVal} {a : Nat} {w : TVal} (h : S[a]? = some w) :
    (S.reverse ++ B)[S.length - a - 1]? = some w := by
  have hlt := (List.getElem?_eq_some_iff.1 h).1
  rw [List.getElem?_append_left (by rw [List.length_reverse]; omega), List.getElem?_reverse (by omega),
    show S.length - 1 - (S.length - a - 1) = a by omega, h]

theorem frame_set {S B : List TVal} {a : Nat} {w : TVal} (h : a < S.length) :
    (S.reverse ++ B).set (S.length - a - 1) w = (S.set a w).reverse ++ B := by
  rw [List.set_append_left _ _ (by rw [List.length_reverse]; omega)]
  congr 1
  apply List.ext_getElem?
  intro j
  by_cases hj : j < S.length
  · rw [List.getElem?_reverse (by rw [List.length_set]; exact hj), List.length_set]
    rw [List.getElem?_set, List.getElem?_set, List.getElem?_reverse hj, List.length_reverse]
    by_cases e : S.length - a - 1 = j
    · rw [if_pos e, if_pos (by omega), if_pos (by omega), if_pos (by omega)]
    · rw [if_neg e, if_neg (by omega)]
  · rw [List.getElem?_eq_none (by simp; omega), List.getElem?_eq_none (by simp; omega)]

/-- The names in scope are in the frame. -/
structure BConf (P : LP) (X : List Name) (s : CS) (ρ : Env) (S : List TVal) : Prop where
  len : S.length = s.size
  has : ∀ x ∈ X, ∃ a v w, assoc x s.depths = some a ∧ lookup x ρ = .ok v ∧ S[a]? = some w ∧ BRel P v w

theorem BConf.inS {P : LP} {X s ρ S} (h : BConf P X s ρ S) : InS X s := fun x hx => by
  obtain ⟨a, v, w, h1, _, h2, _⟩ := h.has x hx
  exact ⟨a, h1, by rw [← h.len]; exact (List.getElem?_eq_some_iff.1 h2).1⟩

theorem BConf.ext {P : LP} {X s ρ S t L} (h : BConf P X s ρ S) (hl : t.size = s.size + L.length)
    (hd : ∀ x ∈ X, assoc x t.depths = assoc x s.depths) : BConf P X t ρ (S ++ L) := by
  refine ⟨by rw [List.length_append, h.len, hl], fun x hx => ?_⟩
  obtain ⟨a, v, w, h1, h2, h3, h4⟩ := h.has x hx
  exact ⟨a, v, w, by rw [hd x hx, h1], h2,
    by rw [List.getElem?_append_left (List.getElem?_eq_some_iff.1 h3).1]; exact h3, h4⟩

theorem BConf.same {P : LP} {X s ρ S t} (h : BConf P X s ρ S) (hl : t.size = s.size)
    (hd : ∀ x ∈ X, assoc x t.depths = assoc x s.depths) : BConf P X t ρ S := by
  have := h.ext (t := t) (L := []) hl hd
  rwa [List.append_nil] at this

theorem BConf.mono {P : LP} {X X' s ρ S} (h : BConf P X s ρ S) (hx : ∀ x ∈ X', x ∈ X) : BConf P X' s ρ S :=
  ⟨h.len, fun x h' => h.has x (hx x h')⟩

/-- New names. -/
theorem BConf.add {P : LP} {X Y s ρ S t ρ' L} (h : BConf P X s ρ S) (hl : t.size = s.size + L.length)
    (hd : ∀ x ∈ X, x ∉ Y → assoc x t.depths = assoc x s.depths ∧ lookup x ρ' = lookup x ρ)
    (hy : ∀ y ∈ Y, ∃ j v w, assoc y t.depths = some (s.size + j) ∧ lookup y ρ' = .ok v ∧ L[j]? = some w ∧ BRel P v w) :
    BConf P (Y ++ X) t ρ' (S ++ L) := by
  refine ⟨by rw [List.length_append, h.len, hl], fun x hx => ?_⟩
  by_cases hm : x ∈ Y
  · obtain ⟨j, v, w, h1, h2, h3, h4⟩ := hy x hm
    exact ⟨_, v, w, h1, h2, by rw [List.getElem?_append_right (by rw [h.len]; omega), h.len, Nat.add_sub_cancel_left]; exact h3, h4⟩
  · rcases List.mem_append.1 hx with hx | hx
    · exact absurd hx hm
    · obtain ⟨a, v, w, h1, h2, h3, h4⟩ := h.has x hx
      obtain ⟨d1, d2⟩ := hd x hx hm
      exact ⟨a, v, w, by rw [d1, h1], by rw [d2, h2],
        by rw [List.getElem?_append_left (List.getElem?_eq_some_iff.1 h3).1]; exact h3, h4⟩

/-- The frame of the function being run, and for a recursive function where its code is. -/
structure Frame (P : LP) (cx : FnCx) (X : List Name) (ρ : Env) (S : List TVal) (ret : Nat) (ws : List TVal) (fnv : TVal)
    (ra : UInt64) (caps L : List TVal) : Prop where
  eq : S = ws ++ (fnv :: P.ret ra :: (caps ++ L))
  ret : ret = ra.toNat
  params : ws.length = cx.params.length
  entry : cx.entrySize = ws.length + 2 + caps.length
  self_ : ∀ f, cx.rec? = some f → f ∈ X ∧ ∃ ρ0 b cn i n0 st s1 code, FnAt P cx.params (some f) cn b i n0 st s1 code ∧
    cx.tailEntry = n0 + 1 ∧ fnv = .obj (P.clo i) caps ∧ BCaps P cn ρ0 caps ∧
    lookup f ρ = .ok (.rclo ρ0 f cx.params b)

theorem Frame.ext {P : LP} {cx X ρ S ret ws fnv ra caps L} (h : Frame P cx X ρ S ret ws fnv ra caps L) (Y : List Name) {ρ' : Env}
    (hρ : ∀ x ∈ X, lookup x ρ' = lookup x ρ) (L' : List TVal) :
    Frame P cx (Y ++ X) ρ' (S ++ L') ret ws fnv ra caps (L ++ L') := by
  refine ⟨by rw [h.eq]; simp, h.ret, h.params, h.entry, fun f hf => ?_⟩
  obtain ⟨hx, ρ0, b, cn, i, n0, st, s1, code, h1, h2, h3, h4, h5⟩ := h.self_ f hf
  exact ⟨List.mem_append_right _ hx, ρ0, b, cn, i, n0, st, s1, code, h1, h2, h3, h4, by rw [hρ f hx]; exact h5⟩

/-! ## The statement -/

/-- What a state after running the code of an expression looks like: the value is on top, or, in tail
position, the function has already returned. -/
def Done (P : LP) (j : Nat) (T : List TVal) (tail : Bool) (ret : Nat) (B : List TVal) (v : Val) (t : VM) : Prop :=
  ∃ w, BRel P v w ∧ (t = ⟨P.addr j, w :: T⟩ ∨ (tail = true ∧ t = ⟨ret, w :: B⟩))

/-- Simulation for evaluations with fuel `n`. -/
def SimAt (P : LP) (n : Nat) : Prop :=
  ∀ (e : Expr) (cx : FnCx) (tail : Bool) (X : List Name) (s s' : CS) (code : List BOp) (i : Nat) (ρ : Env)
    (S B : List TVal) (ret : Nat), Good X e → BcShape e → CxOK cx e → CxX cx X →
    comp cx tail e s = some (code, s') → s'.fns <+: P.fns → CodeAt P i code → CxInv cx s → BConf P X s ρ S →
    (tail = true → ∃ ws fnv ra caps L, Frame P cx X ρ S ret ws fnv ra caps L) → sizeOf e ≤ P.D →
    Sim P (Done P (i + code.length) (S.reverse ++ B) tail ret B) n (sizeOf e) (evalA n ρ e) ⟨P.addr i, S.reverse ++ B⟩

theorem comp_post {e : Expr} {cx : FnCx} {tail : Bool} {X : List Name} {s s' : CS} {code : List BOp} (hg : Good X e)
    (hsh : BcShape e) (hcx : CxOK cx e) (hX : CxX cx X) (h : comp cx tail e s = some (code, s')) (hs : InS X s)
    (hc : CxInv cx s) : Post 1 (bcDefined e) cx s code s' := by
  obtain ⟨c, s2, h1, h2⟩ := comp_ok e cx tail X hg hsh hcx hX s hs hc
  rw [h] at h1
  cases h1
  exact h2

end Tic.Core.Bc
