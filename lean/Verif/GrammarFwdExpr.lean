/-
The parser reads every expression of the grammar.
-/
import Verif.GrammarFwd

namespace Tic.Grammar

open Tic.Parser

/-- The tokens that start an argument. -/
def exStart : TokenKind → Bool
  | .leftParen | .true_ | .false_ | .number | .string | .ident | .hole => true
  | _ => false

def isOp (k : TokenKind) : Bool := (level k).isSome

/-- A token that cannot continue an expression. -/
def contEx (k : TokenKind) : Bool := isDot k || exStart k || isOp k

theorem Not.dot {r} (h : Not contEx r) : Not isDot r := fun k e => by have := h k e; simp [contEx] at this; exact this.1.1
theorem Not.ex {r} (h : Not contEx r) : Not exStart r := fun k e => by have := h k e; simp [contEx] at this; exact this.1.2
theorem Not.op {r} (h : Not contEx r) : Not isOp r := fun k e => by have := h k e; simp [contEx] at this; exact this.2

theorem Atom.head {t} (h : Atom t) : ∃ k r, t.yield = k :: r ∧ exStart k = true := by
  cases h with
  | name => exact ⟨_, _, by rw [yield_node, yields_cons, yield_nm]; rfl, rfl⟩
  | inModule => exact ⟨_, _, by rw [yield_node, yields_cons, yield_nm]; rfl, rfl⟩
  | _ => exact ⟨_, _, by rw [yield_node, yields_cons, yield_tok]; rfl, rfl⟩

theorem App.head : ∀ {t}, App t → ∃ k r, t.yield = k :: r ∧ exStart k = true
  | _, .atom h => h.head
  | _, .app h _ => by
    obtain ⟨k, r, e, h1⟩ := App.head h
    exact ⟨k, _, by rw [yield_node, yields_cons, e]; rfl, h1⟩

theorem Op.head : ∀ {p t}, Op p t → ∃ k r, t.yield = k :: r ∧ exStart k = true
  | _, _, .app h => h.head
  | _, _, .bin _ _ h _ => by
    obtain ⟨k, r, e, h1⟩ := Op.head h
    exact ⟨k, _, by rw [yield_node, yields_cons, e]; rfl, h1⟩

theorem f_noAtom {n s} (h : Not exStart (kinds s)) (hn : 1 ≤ n) : Ok (atomExpr n) s fun r s' => r = none ∧ Same s s' := by
  obtain ⟨n, rfl⟩ : ∃ m, n = m + 1 := ⟨n - 1, by omega⟩
  have no : ∀ {s1 k}, exStart k = true → Same s s1 → (kinds s1).head? ≠ some k := by
    intro s1 k hk hs e
    rw [hs.1] at e
    rw [h k e] at hk; cases hk
  unfold atomExpr
  refine ok_bind (f_hint fun s1 h1 => ?_)
  refine f_no (no rfl h1) fun s2 h2 => ?_
  replace h2 := h1.trans h2
  refine ok_bind (Ok.mono (Q := fun b s' => b = false ∧ Same s s') (f_no (no rfl h2) fun s3 h3 => f_at fun s4 h4 => ?_) fun b s4 h4 => ?_)
  · have := no (k := .false_) rfl (h2.trans h3)
    exact ⟨by simpa using this, (h2.trans h3).trans h4⟩
  obtain ⟨rfl, h4⟩ := h4
  simp only [Bool.false_eq_true, if_false]
  refine f_no (no rfl h4) fun s5 h5 => ?_
  replace h5 := h4.trans h5
  refine f_no (no rfl h5) fun s6 h6 => ?_
  replace h6 := h5.trans h6
  refine f_no (no rfl h6) fun s7 h7 => ?_
  replace h7 := h6.trans h7
  refine f_no (no rfl h7) fun s8 h8 => ?_
  exact ok_pure ⟨rfl, h7.trans h8⟩

/-- `q` is the parser's number for "operators of level at least `p`". -/
def Cut (q p : Nat) : Prop := ∀ o l pw r, level o = some l → bindingPower o = some (pw, r) → (pw < q ↔ l < p)

theorem cut_zero : Cut 0 0 := by intro o l pw r _ _; omega

theorem op_table {o l} (h : level o = some l) : ∃ pw r, bindingPower o = some (pw, r) ∧ Cut r (l + 1) := by
  have h' := h
  cases o <;> simp only [level, Option.some.injEq, reduceCtorEq] at h' <;> subst h' <;> refine ⟨_, _, rfl, ?_⟩ <;>
    intro o l pw r h1 h2 <;> cases o <;> simp only [level, bindingPower, Option.some.injEq, Prod.mk.injEq, reduceCtorEq] at h1 h2 <;> omega

theorem op_none {k} (h : level k = none) : bindingPower k = none := by
  cases k <;> simp_all [level, bindingPower]

/-- What an annotation emits. -/
theorem f_annot {n s rest ann} {k : Unit → P Unit} {Q : Unit → PState → Prop} (ha : Ann ann) (hk : kinds s = yields ann ++ (.equals :: rest))
    (hn : 10 * (kinds s).length + 3 ≤ n) (hq : ∀ s', kinds s' = .equals :: rest → Emits s s' ann → Ok (k ()) s' Q) :
    Ok (at_ .colon >>= fun b => if b = true then (bump .colon >>= fun _ => type_ n >>= k) else k ()) s Q := by
  cases ha with
  | none =>
    simp only [yields_nil, List.nil_append] at hk
    exact f_no (by rw [hk]; simp) fun s1 h1 => hq s1 (h1.1.trans hk) h1.emits
  | @some t ht =>
    have hk' : kinds s = .colon :: (t.yield ++ (.equals :: rest)) := by rw [hk]; simp [yields_cons, yield_tok]
    refine f_yes hk' fun s1 h1 => ?_
    refine ok_bind (f_bump (h1.1.trans hk') fun s2 h2 e2 => ?_)
    refine ok_bind (((fwd_types n).2.2 s2 t _ ht h2 (by simp [Not, isDot]) (by simp [Not, tyStart]) (by simp [Not, isArrow]) ?_).mono fun _ s3 h3 => ?_)
    · rw [h2]; rw [hk'] at hn; simp only [List.length_cons] at hn ⊢; omega
    · exact hq s3 h3.1 ((h1.emits.trans e2).trans h3.2)

theorem yields_nms (n : Nat) : yields (List.replicate n nm) = List.replicate n .ident := by
  induction n with
  | zero => rfl
  | succ n ih => rw [List.replicate_succ, yields_cons, yield_nm, ih]; rfl

/-- A loop reading names. -/
theorem f_names {s rest j n} (hk : kinds s = List.replicate j .ident ++ rest) (hr : rest.head? ≠ some .ident) (hn : j < n) :
    Ok (whileM n (at_ .ident) bumpName) s fun _ s' => kinds s' = rest ∧ Emits s s' (List.replicate j nm) := by
  refine f_while (G := fun a => a = nm) (rest := rest) (N := (kinds s).length) (fun s1 h1 _ => f_at fun s2 h2 => ⟨?_, h2⟩) ?_
    (List.replicate j nm) (by intro a ha; exact (List.mem_replicate.mp ha).2) n s (by rw [yields_nms]; exact hk) (Nat.le_refl _) (by simpa using hn)
  · rw [h1]; simpa using hr
  · intro s1 a ts ha _ h1 _
    subst ha
    rw [yield_nm] at h1
    refine f_at fun s2 h2 => ⟨by rw [h1]; simp, f_bumpName (h2.1.trans h1) fun s3 h3 e3 => ⟨h3, h2.emits.trans e3⟩⟩

theorem Case.head {c} (h : Case c) : ∃ r, c.yield = .pipe :: r := by
  cases h with
  | mk _ _ => exact ⟨_, by rw [yield_node, List.cons_append, yields_cons, yield_tok]; rfl⟩

section
variable (n : Nat)

/-- The statements proved by induction. -/
structure FwdExpr : Prop where
  atom : ∀ s t rest, Atom t → kinds s = t.yield ++ rest → Not isDot rest → 10 * (kinds s).length + 1 ≤ n →
      Ok (atomExpr n) s fun r s' => ∃ m, r = some m ∧ kinds s' = rest ∧ EmitsM s s' m t
  app : ∀ s t rest, App t → kinds s = t.yield ++ rest → Not isDot rest → Not exStart rest → 10 * (kinds s).length + 2 ≤ n →
      Ok (applyExpr n) s fun r s' => ∃ m, r = some m ∧ kinds s' = rest ∧ EmitsM s s' m t
  op : ∀ s t rest p q, Op p t → Cut q p → kinds s = t.yield ++ rest → Not isDot rest → Not exStart rest →
      (∀ o l, rest.head? = some o → level o = some l → l < p) → 10 * (kinds s).length + 3 ≤ n →
      Ok (opExpr n q) s fun _ s' => kinds s' = rest ∧ Emits s s' [t]
  case : ∀ s t rest, Case t → kinds s = t.yield ++ rest → Not contEx rest → 10 * (kinds s).length + 1 ≤ n →
      Ok (matchCase n) s fun _ s' => kinds s' = rest ∧ Emits s s' [t]
  ex : ∀ s t rest, Ex t → kinds s = t.yield ++ rest → Not contEx rest → 10 * (kinds s).length + 4 ≤ n →
      Ok (expr n) s fun _ s' => kinds s' = rest ∧ Emits s s' [t]
end

theorem fwd_atom {n} (ih : FwdExpr n) : ∀ s t rest, Atom t → kinds s = t.yield ++ rest → Not isDot rest → 10 * (kinds s).length + 1 ≤ n + 1 →
      Ok (atomExpr (n + 1)) s fun r s' => ∃ m, r = some m ∧ kinds s' = rest ∧ EmitsM s s' m t := by
  intro s t rest ht hk hd hn
  unfold atomExpr
  refine ok_bind (f_hint fun s1 h1 => ?_)
  by_cases hpar : ∃ e, t = .node .parenExpr [.tok .leftParen, e, .tok .rightParen] ∧ Ex e
  · obtain ⟨e, rfl, he⟩ := hpar
    have hx : kinds s = .leftParen :: (e.yield ++ (.rightParen :: rest)) := by rw [hk]; simp [yield_node, yields_cons, yield_tok]
    refine f_yes (h1.1.trans hx) fun s2 h2 => ?_
    replace h2 := h1.trans h2
    refine ok_bind (ok_start ?_)
    refine ok_bind (f_bump (h2.1.trans hx) fun s3 h3 e3 => ?_)
    refine ok_bind ((ih.ex s3 e _ he h3 (by simp [Not, contEx, isDot, exStart, isOp, level]) ?_).mono fun _ s4 h4 => ?_)
    · rw [h3]; rw [hx] at hn; simp only [List.length_cons] at hn ⊢; omega
    refine ok_bind (f_expect h4.1 fun s5 h5 e5 => ?_)
    exact (f_doneM h2 ((e3.trans h4.2).trans e5)).mono fun x s' ⟨m, a, b, c⟩ => ⟨m, a, b.trans h5, c⟩
  have leaf : ∀ {k tk}, t = .node k [.tok tk] → kinds s = tk :: rest := by
    intro k tk e; rw [hk, e]; simp [yield_node, yields_cons, yield_tok]
  have hne : (kinds s).head? ≠ some .leftParen := by
    cases ht with
    | paren he => exact absurd ⟨_, rfl, he⟩ hpar
    | _ => rw [hk]; simp [yield_node, yields_cons, yield_tok, yield_nm]
  refine f_no (by rw [h1.1]; exact hne) fun s2 h2 => ?_
  replace h2 := h1.trans h2
  -- booleans
  have bools : ∀ tk, (tk = .true_ ∨ tk = .false_) → t = .node .boolExpr [.tok tk] → Ok (do
      if ← at_ .true_ then pure true else at_ .false_) s2 fun b s' => b = true ∧ Same s s' := by
    intro tk ho e
    have hx := leaf e
    rcases ho with rfl | rfl
    · exact f_yes (h2.1.trans hx) fun s3 h3 => ok_pure ⟨rfl, h2.trans h3⟩
    · refine f_no (by rw [h2.1, hx]; simp) fun s3 h3 => f_at fun s4 h4 => ⟨by rw [h3.1, h2.1, hx]; simp, (h2.trans h3).trans h4⟩
  by_cases hb : ∃ tk, (tk = .true_ ∨ tk = .false_) ∧ t = .node .boolExpr [.tok tk]
  · obtain ⟨tk, ho, e⟩ := hb
    refine ok_bind ((bools tk ho e).mono fun b s3 h3 => ?_)
    rw [h3.1, if_pos rfl, e]
    exact f_leafAny h3.2 (leaf e)
  have hne1 : (kinds s).head? ≠ some .true_ ∧ (kinds s).head? ≠ some .false_ := by
    cases ht with
    | true_ => exact absurd ⟨_, .inl rfl, rfl⟩ hb
    | false_ => exact absurd ⟨_, .inr rfl, rfl⟩ hb
    | _ => rw [hk]; simp [yield_node, yields_cons, yield_tok, yield_nm]
  refine ok_bind (Ok.mono (Q := fun b s' => b = false ∧ Same s s') (f_no (by rw [h2.1]; exact hne1.1) fun s3 h3 => f_at fun s4 h4 => ?_) fun b s4 h4 => ?_)
  · exact ⟨by rw [h3.1, h2.1]; simpa using hne1.2, (h2.trans h3).trans h4⟩
  obtain ⟨rfl, h4⟩ := h4
  simp only [Bool.false_eq_true, if_false]
  cases ht with
  | paren he => exact absurd ⟨_, rfl, he⟩ hpar
  | true_ => exact absurd ⟨_, .inl rfl, rfl⟩ hb
  | false_ => exact absurd ⟨_, .inr rfl, rfl⟩ hb
  | number =>
    have hx := leaf rfl
    exact f_yes (h4.1.trans hx) fun s5 h5 => f_leafAny (h4.trans h5) hx
  | string =>
    have hx := leaf rfl
    refine f_no (by rw [h4.1, hx]; simp) fun s5 h5 => ?_
    replace h5 := h4.trans h5
    exact f_yes (h5.1.trans hx) fun s6 h6 => f_leafAny (h5.trans h6) hx
  | hole =>
    have hx := leaf rfl
    refine f_no (by rw [h4.1, hx]; simp) fun s5 h5 => ?_
    replace h5 := h4.trans h5
    refine f_no (by rw [h5.1, hx]; simp) fun s6 h6 => ?_
    replace h6 := h5.trans h6
    refine f_no (by rw [h6.1, hx]; simp) fun s7 h7 => ?_
    replace h7 := h6.trans h7
    exact f_yes (h7.1.trans hx) fun s8 h8 => f_leaf (h7.trans h8) hx
  | name =>
    have hx : kinds s = yields [nm] ++ rest := by rw [hk, yield_node]
    have hx' : kinds s = .ident :: rest := by rw [hx, yields_cons, yield_nm]; rfl
    refine f_no (by rw [h4.1, hx']; simp) fun s5 h5 => ?_
    replace h5 := h4.trans h5
    refine f_no (by rw [h5.1, hx']; simp) fun s6 h6 => ?_
    replace h6 := h5.trans h6
    refine f_yes (h6.1.trans hx') fun s7 h7 => ?_
    replace h7 := h6.trans h7
    refine ok_bind (ok_start ?_)
    refine f_path .plain (h7.1.trans hx) hd (fun s' e => by simp at e) fun s' _ h8 e8 => ?_
    exact (f_doneM h7 e8).mono fun x s' ⟨m, a, b, c⟩ => ⟨m, a, b.trans h8, c⟩
  | inModule =>
    have hx : kinds s = yields [nm, .tok .dot, nm] ++ rest := by rw [hk, yield_node]
    have hx' : kinds s = .ident :: .dot :: .ident :: rest := by rw [hx]; simp [yields_cons, yield_nm, yield_tok]
    refine f_no (by rw [h4.1, hx']; simp) fun s5 h5 => ?_
    replace h5 := h4.trans h5
    refine f_no (by rw [h5.1, hx']; simp) fun s6 h6 => ?_
    replace h6 := h5.trans h6
    refine f_yes (h6.1.trans hx') fun s7 h7 => ?_
    replace h7 := h6.trans h7
    refine ok_bind (ok_start ?_)
    refine f_path .inModule (h7.1.trans hx) hd (fun s' _ h8 e8 => ?_) fun s' e => by simp at e
    exact (f_doneM h7 e8).mono fun x s' ⟨m, a, b, c⟩ => ⟨m, a, b.trans h8, c⟩

theorem exStart_noDot {k r rest} (h : exStart k = true) : Not isDot (k :: r ++ rest) := by
  intro k' e
  simp only [List.cons_append, List.head?_cons, Option.some.injEq] at e
  subst e
  cases k <;> simp_all [exStart, isDot]

theorem ok_unbind {α β : Type} {m : P α} {f : α → P β} {s : PState} {Q : β → PState → Prop} (h : Ok (m >>= f) s Q) : Ok m s fun a s' => Ok (f a) s' Q := by
  obtain ⟨b, s2, h1, hq⟩ := h
  rw [bind_eq, Option.bind_eq_some_iff] at h1
  obtain ⟨⟨a, s1⟩, h2, h3⟩ := h1
  exact ⟨a, s1, h2, b, s2, h3, hq⟩

/-- One more argument. -/
abbrev appBody (n : Nat) (m : Nat) : P (Nat ⊕ Nat) := do
  if (← atomExpr n).isSome then
    let p ← precede m
    let m ← complete p .applyExpr
    pure (.inl m)
  else pure (.inr m)

theorem fwd_app {n} (ih : FwdExpr n) : ∀ s t rest, App t → kinds s = t.yield ++ rest → Not isDot rest → Not exStart rest → 10 * (kinds s).length + 2 ≤ n + 1 →
      Ok (applyExpr (n + 1)) s fun r s' => ∃ m, r = some m ∧ kinds s' = rest ∧ EmitsM s s' m t := by
  -- reading the function and all arguments so far, then going on with the loop
  have key : ∀ j s t rest (Q : Option Nat → PState → Prop), t.yield.length ≤ j → App t → kinds s = t.yield ++ rest → Not isDot rest → 10 * (kinds s).length + 1 ≤ n →
      (∀ N s1 m, kinds s1 = rest → EmitsM s s1 m t → rest.length < N → Ok (loopM (appBody n) N m >>= fun m => pure (some m)) s1 Q) →
      Ok (applyExpr (n + 1)) s Q := by
    intro j
    induction j with
    | zero =>
      intro s t rest Q hj ht
      obtain ⟨k, r, e, -⟩ := ht.head
      rw [e] at hj; simp at hj
    | succ j ihj =>
      intro s t rest Q hj ht hk hd hn hQ
      cases ht with
      | atom ha =>
        unfold applyExpr
        refine ok_bind ((ih.atom s t rest ha hk hd (by omega)).mono fun r s1 h1 => ?_)
        obtain ⟨m, rfl, h1, e1⟩ := h1
        exact hQ n s1 m h1 e1 (by rw [hk] at hn; simp at hn; omega)
      | @app f a hf ha =>
        have hk' : kinds s = f.yield ++ (a.yield ++ rest) := by rw [hk]; simp [yield_node, yields_cons]
        obtain ⟨k, r, e, hst⟩ := ha.head
        have hj' : f.yield.length ≤ j := by
          have : (Syn.node .applyExpr [f, a]).yield.length = f.yield.length + a.yield.length := by simp [yield_node, yields_cons]
          rw [this, e] at hj
          simp at hj; omega
        refine ihj s f _ Q hj' hf hk' (by rw [e]; exact exStart_noDot hst) hn fun N s1 m h1 e1 hN => ?_
        obtain ⟨N, rfl⟩ : ∃ M, N = M + 1 := ⟨N - 1, by omega⟩
        unfold loopM
        refine ok_bind (ok_bind (ok_bind ((ih.atom s1 a rest ha h1 hd ?_).mono fun r s2 h2 => ?_)))
        · rw [h1]; rw [hk'] at hn; simp at hn ⊢; omega
        obtain ⟨m2, rfl, h2, e2⟩ := h2
        simp only [Option.isSome_some, if_true]
        obtain ⟨s3, p1, p2, p3, p4⟩ := precede_eq e1 e2.emits
        obtain ⟨s4, q1, q2, q3⟩ := p4 s3 .applyExpr [] (.refl _)
        refine ok_bind ⟨_, s3, p1, ok_bind ⟨_, s4, q1, ok_pure ?_⟩⟩
        have := hQ N s4 s2.events.length (q2.trans (p2.trans h2)) (by simpa using q3) (by simp at hN; have := yield_pos e; omega)
        exact ok_unbind this
  intro s t rest ht hk hd he hn
  refine key _ s t rest _ (Nat.le_refl _) ht hk hd (by omega) fun N s1 m h1 e1 hN => ?_
  obtain ⟨N, rfl⟩ : ∃ M, N = M + 1 := ⟨N - 1, by omega⟩
  unfold loopM
  refine ok_bind (ok_bind (ok_bind ((f_noAtom (by rw [h1]; exact he) (by omega)).mono fun r s2 h2 => ?_)))
  rw [h2.1]
  simp only [Option.isSome_none, Bool.false_eq_true, if_false]
  exact ok_pure (ok_pure (ok_pure ⟨m, rfl, h2.2.1.trans h1, e1.same h2.2.2⟩))

/-- One more operator. -/
abbrev opBody (n minPrec : Nat) (m : Nat) : P (Nat ⊕ Unit) := do
  match (← peek).bind bindingPower with
  | none => pure (.inr ())
  | some (power, right) =>
    if power < minPrec then pure (.inr ()) else
      let binaryNode ← precede m
      let op ← start
      bumpAny
      let _ ← complete op .binaryOp
      opExpr n right
      let m ← complete binaryNode .binaryExpr
      hint .operator
      pure (.inl m)

theorem isOp_noDot {o l r} (h : level o = some l) : Not isDot (o :: r) ∧ Not exStart (o :: r) := by
  refine ⟨fun k e => ?_, fun k e => ?_⟩ <;> simp only [List.head?_cons, Option.some.injEq] at e <;> subst e <;> cases o <;> simp_all [level, isDot, exStart]

theorem fwd_op {n} (ih : FwdExpr n) : ∀ s t rest p q, Op p t → Cut q p → kinds s = t.yield ++ rest → Not isDot rest → Not exStart rest →
      (∀ o l, rest.head? = some o → level o = some l → l < p) → 10 * (kinds s).length + 3 ≤ n + 1 →
      Ok (opExpr (n + 1) q) s fun _ s' => kinds s' = rest ∧ Emits s s' [t] := by
  intro s t rest p q ht hq hk hd he hl hn
  have key : ∀ j t rest p' (Q : Unit → PState → Prop), t.yield.length ≤ j → Op p' t → p ≤ p' → kinds s = t.yield ++ rest → Not isDot rest → Not exStart rest →
      (∀ o l, rest.head? = some o → level o = some l → l ≤ p') → 
      (∀ N s1 m, kinds s1 = rest → EmitsM s s1 m t → rest.length < N → Ok (loopM (opBody n q) N m) s1 Q) →
      Ok (opExpr (n + 1) q) s Q := by
    intro j
    induction j with
    | zero =>
      intro t rest p' Q hj ht
      obtain ⟨k, r, e, -⟩ := ht.head
      rw [e] at hj; simp at hj
    | succ j ihj =>
      intro t rest p' Q hj ht hp hk hd he hl hQ
      cases ht with
      | app ha =>
        unfold opExpr
        refine ok_bind (f_hint fun s1 h1 => ?_)
        refine ok_bind ((ih.app s1 t rest ha (h1.1.trans hk) hd he (by rw [h1.1]; omega)).mono fun r s2 h2 => ?_)
        obtain ⟨m, rfl, h2, e2⟩ := h2
        refine ok_bind (f_hint fun s3 h3 => ?_)
        exact hQ n s3 m (h3.1.trans h2) ((e2.pre h1.2).same h3.2) (by rw [hk] at hn; simp at hn; omega)
      | @bin _ l o a b ho hpl ha hb =>
        have hk' : kinds s = a.yield ++ (o :: (b.yield ++ rest)) := by rw [hk]; simp [yield_node, yields_cons, yield_tok]
        obtain ⟨kb, rb, eb, hsb⟩ := hb.head
        have hj' : a.yield.length ≤ j := by
          have : (Syn.node .binaryExpr [a, .node .binaryOp [.tok o], b]).yield.length = a.yield.length + (1 + b.yield.length) := by
            simp [yield_node, yields_cons, yield_tok]; omega
          rw [this] at hj
          omega
        obtain ⟨nd, ne⟩ := isOp_noDot (r := b.yield ++ rest) ho
        refine ihj a _ l Q hj' ha (by omega) hk' nd ne (fun o' l' e1 e2 => ?_) fun N s1 m h1 e1 hN => ?_
        · simp only [List.head?_cons, Option.some.injEq] at e1
          subst e1
          rw [ho] at e2
          simp only [Option.some.injEq] at e2
          omega
        obtain ⟨N, rfl⟩ : ∃ M, N = M + 1 := ⟨N - 1, by omega⟩
        obtain ⟨pw, right, hbp, hcut⟩ := op_table ho
        have hpw : ¬ pw < q := by
          rw [hq o l pw right ho hbp]; omega
        unfold loopM
        refine ok_bind (ok_bind (f_peek fun s2 h2 => ?_))
        rw [h1]
        simp only [List.head?_cons, Option.bind_some, hbp]
        rw [if_neg hpw]
        obtain ⟨s3, p1, p2, p3, p4⟩ := precede_eq e1 h2.emits
        refine ok_bind ⟨_, s3, p1, ok_bind (ok_start ?_)⟩
        refine ok_bind (f_bumpAny (k := o) (r := b.yield ++ rest) (p2.trans (h2.1.trans h1)) fun s4 h4 e4 => ?_)
        refine ok_bind (f_complete e4 fun s5 h5 e5 => ?_)
        refine ok_bind ((ih.op s5 b rest (l + 1) right hb hcut (h5.trans h4) hd he (fun o' l' e1 e2 => by have := hl o' l' e1 e2; omega) ?_).mono fun _ s6 h6 => ?_)
        · rw [h5, h4]; rw [hk'] at hn; simp at hn ⊢; omega
        obtain ⟨s7, q1, q2, q3⟩ := p4 s6 .binaryExpr _ (e5.emits.trans h6.2)
        refine ok_bind ⟨_, s7, q1, ok_bind (f_hint fun s8 h8 => ok_pure ?_)⟩
        exact hQ N s8 _ (h8.1.trans (q2.trans h6.1)) ((by simpa using q3 : EmitsM s s7 _ _).same h8.2) (by simp at hN; omega)
  refine key _ t rest p _ (Nat.le_refl _) ht (Nat.le_refl _) hk hd he (fun o l e1 e2 => by have := hl o l e1 e2; omega) fun N s1 m h1 e1 hN => ?_
  obtain ⟨N, rfl⟩ : ∃ M, N = M + 1 := ⟨N - 1, by omega⟩
  unfold loopM
  refine ok_bind (ok_bind (f_peek fun s2 h2 => ?_))
  have stop : Ok (pure () : P Unit) s2 fun _ s' => kinds s' = rest ∧ Emits s s' [t] := ok_pure ⟨h2.1.trans h1, (e1.same h2.2).emits⟩
  rw [h1]
  cases hh : rest.head? with
  | none => exact ok_pure stop
  | some o =>
    cases ho : level o with
    | none =>
      simp only [Option.bind_some, op_none ho]
      exact ok_pure stop
    | some l =>
      obtain ⟨pw, right, hbp, hcut⟩ := op_table ho
      have hpw : pw < q := (hq o l pw right ho hbp).mpr (hl o l hh ho)
      simp only [Option.bind_some, hbp]
      rw [if_pos hpw]
      exact ok_pure stop

theorem Path.pos {p} (h : Path p) : ∃ k r, yields p = k :: r := by obtain ⟨r, e⟩ := h.head; exact ⟨_, r, e⟩

/-- A path where a name is expected. -/
theorem f_pathE {α : Type} {s rest} {p : List Syn} {A : P α} {Q : α → PState → Prop} (hp : Path p) (hk : kinds s = yields p ++ rest) (hd : Not isDot rest)
    (hA : ∀ s', kinds s' = rest → Emits s s' p → Ok A s' Q) :
    Ok (expectName >>= fun _ => at_ .dot >>= fun b => if b = true then (bump .dot >>= fun _ => expectName >>= fun _ => A) else A) s Q := by
  obtain ⟨r, e⟩ := hp.head
  refine ok_bind ?_
  show Ok (at_ .ident >>= fun b => if b = true then bumpName else emitError) s _
  exact f_yes (r := r ++ rest) (by rw [hk, e]; rfl) fun s1 h1 => ok_unbind (f_path (B := A) hp (h1.1.trans hk) hd
    (fun s' _ a b => hA s' a (by simpa using h1.emits.trans b)) fun s' _ a b => hA s' a (by simpa using h1.emits.trans b))

theorem fwd_case {n} (ih : FwdExpr n) : ∀ s t rest, Case t → kinds s = t.yield ++ rest → Not contEx rest → 10 * (kinds s).length + 1 ≤ n + 1 →
      Ok (matchCase (n + 1)) s fun _ s' => kinds s' = rest ∧ Emits s s' [t] := by
  intro s t rest ht hk hc hn
  cases ht with
  | @mk p j e hp he =>
    have hx : kinds s = .pipe :: (yields p ++ (List.replicate j .ident ++ (.arrow :: (e.yield ++ rest)))) := by
      rw [hk, yield_node, List.cons_append, yields_cons, yields_append, yield_tok]
      simp only [yields_cons, yield_node, yields_nms, yield_tok, yields_nil]
      simp
    unfold matchCase
    refine ok_bind (ok_start ?_)
    refine ok_bind (f_bump (s := started s) hx fun s1 h1 e1 => ?_)
    refine f_pathE hp h1 ?_ fun s2 h2 e2 => ?_
    · cases j with
      | zero => simp [Not, isDot]
      | succ j => simp [List.replicate_succ, Not, isDot]
    refine ok_bind (ok_start ?_)
    refine ok_bind ((f_names (s := started s2) h2 (by simp) ?_).mono fun _ s3 h3 => ?_)
    · rw [hx] at hn; simp at hn; omega
    refine ok_bind (f_complete h3.2 fun s4 h4 e4 => ?_)
    refine ok_bind (f_expect (h4.trans h3.1) fun s5 h5 e5 => ?_)
    refine ok_bind ((ih.ex s5 e rest he h5 hc ?_).mono fun _ s6 h6 => ?_)
    · rw [h5]; rw [hx] at hn; simp at hn ⊢; omega
    refine f_done (Same.refl s) ((e1.trans e2).trans ((e4.emits.trans e5).trans h6.2)) fun s7 h7 e7 => ⟨h7.trans h6.1, ?_⟩
    simpa using e7

theorem stop_tok {k r} (h : contEx k = false) : Not contEx (k :: r) := by
  intro k' e
  simp only [List.head?_cons, Option.some.injEq] at e
  subst e; exact h

theorem fwd_ex {n} (ih : FwdExpr n) : ∀ s t rest, Ex t → kinds s = t.yield ++ rest → Not contEx rest → 10 * (kinds s).length + 4 ≤ n + 1 →
      Ok (expr (n + 1)) s fun _ s' => kinds s' = rest ∧ Emits s s' [t] := by
  intro s t rest ht hk hc hn
  unfold expr
  refine ok_bind (f_hint fun s1 h1 => ?_)
  cases ht with
  | @let_ ann v r ha hv hr =>
    have hx : kinds s = .let_ :: .ident :: (yields ann ++ (.equals :: (v.yield ++ (.semicolon :: (r.yield ++ rest))))) := by
      rw [hk, yield_node, yields_append, yields_append]
      simp [yields_cons, yield_tok, yield_nm]
    have hlen : (kinds s).length = (yields ann).length + v.yield.length + r.yield.length + rest.length + 4 := by rw [hx]; simp; omega
    refine f_yes (h1.1.trans hx) fun s2 h2 => ?_
    replace h2 := h1.trans h2
    refine ok_bind (ok_start ?_)
    refine ok_bind (f_bump (h2.1.trans hx) fun s3 h3 e3 => ?_)
    refine ok_bind (f_expectName h3 fun s4 h4 e4 => ?_)
    simp only []
    refine f_annot (k := fun _ => _) ha h4 (by rw [h4]; simp; omega) fun s5 h5 e5 => ?_
    refine ok_bind (f_expect h5 fun s6 h6 e6 => ?_)
    refine ok_bind ((ih.ex s6 v _ hv h6 (stop_tok rfl) (by rw [h6]; simp; omega)).mono fun _ s7 h7 => ?_)
    refine ok_bind (f_expect h7.1 fun s8 h8 e8 => ?_)
    refine ok_bind ((ih.ex s8 r _ hr h8 hc (by rw [h8]; simp; omega)).mono fun _ s9 h9 => ?_)
    refine f_done h2 ((e3.trans e4).trans (e5.trans ((e6.trans h7.2).trans (e8.trans h9.2)))) fun s10 h10 e10 => ⟨h10.trans h9.1, ?_⟩
    simpa using e10
  | @match_ d cs hd hcs =>
    have hx : kinds s = .match_ :: (d.yield ++ (.with_ :: (yields cs ++ (.end_ :: rest)))) := by
      rw [hk, yield_node, yields_append, yields_append]
      simp [yields_cons, yield_tok]
    have hlen : (kinds s).length = d.yield.length + (yields cs).length + rest.length + 3 := by rw [hx]; simp; omega
    refine f_no (by rw [h1.1, hx]; simp) fun s2 h2 => ?_
    replace h2 := h1.trans h2
    refine f_yes (h2.1.trans hx) fun s3 h3 => ?_
    replace h3 := h2.trans h3
    refine ok_bind (ok_start ?_)
    refine ok_bind (f_bump (h3.1.trans hx) fun s4 h4 e4 => ?_)
    refine ok_bind ((ih.ex s4 d _ hd h4 (stop_tok rfl) (by rw [h4]; simp; omega)).mono fun _ s5 h5 => ?_)
    refine ok_bind (f_expect h5.1 fun s6 h6 e6 => ?_)
    have hcl := len_yields (G := Case) (fun a h => by obtain ⟨r, e⟩ := h.head; exact yield_pos e) cs hcs
    have hnp : Not contEx (.end_ :: rest) := stop_tok rfl
    refine ok_bind ((f_while (G := Case) (rest := .end_ :: rest) (N := (kinds s6).length) (fun s7 h7 _ => f_at fun s8 h8 => ⟨by rw [h7]; simp, h8⟩) ?_
      cs hcs n s6 h6 (Nat.le_refl _) (by omega)).mono fun _ s7 h7 => ?_)
    · intro s7 a ts ha hts h7 hN
      obtain ⟨r, e⟩ := ha.head
      refine f_at fun s8 h8 => ⟨by rw [h7, e]; simp, ?_⟩
      rw [h6] at hN
      simp only [List.length_append, List.length_cons] at hN
      refine (ih.case s8 a _ ha (h8.1.trans h7) (not_append hts (fun b hb => ?_) hnp) (by rw [h8.1]; omega)).mono fun _ s9 h9 => ⟨h9.1, h8.emits.trans h9.2⟩
      obtain ⟨r, e⟩ := hb.head
      exact ⟨_, r, e, rfl⟩
    refine ok_bind (f_expect h7.1 fun s8 h8 e8 => ?_)
    refine f_done h3 ((e4.trans h5.2).trans ((e6.trans h7.2).trans e8)) fun s9 h9 e9 => ⟨h9.trans h8, ?_⟩
    simpa using e9
  | @if_ c a b hcd ha hb =>
    have hx : kinds s = .if_ :: (c.yield ++ (.then_ :: (a.yield ++ (.else_ :: (b.yield ++ rest))))) := by
      rw [hk]; simp [yield_node, yields_cons, yield_tok]
    have hlen : (kinds s).length = c.yield.length + a.yield.length + b.yield.length + rest.length + 3 := by rw [hx]; simp; omega
    refine f_no (by rw [h1.1, hx]; simp) fun s2 h2 => ?_
    replace h2 := h1.trans h2
    refine f_no (by rw [h2.1, hx]; simp) fun s3 h3 => ?_
    replace h3 := h2.trans h3
    refine f_yes (h3.1.trans hx) fun s4 h4 => ?_
    replace h4 := h3.trans h4
    refine ok_bind (ok_start ?_)
    refine ok_bind (f_bump (h4.1.trans hx) fun s5 h5 e5 => ?_)
    refine ok_bind ((ih.ex s5 c _ hcd h5 (stop_tok rfl) (by rw [h5]; simp; omega)).mono fun _ s6 h6 => ?_)
    refine ok_bind (f_expect h6.1 fun s7 h7 e7 => ?_)
    refine ok_bind ((ih.ex s7 a _ ha h7 (stop_tok rfl) (by rw [h7]; simp; omega)).mono fun _ s8 h8 => ?_)
    refine ok_bind (f_expect h8.1 fun s9 h9 e9 => ?_)
    refine ok_bind ((ih.ex s9 b _ hb h9 hc (by rw [h9]; simp; omega)).mono fun _ s10 h10 => ?_)
    refine f_done h4 ((e5.trans h6.2).trans ((e7.trans h8.2).trans (e9.trans h10.2))) fun s11 h11 e11 => ⟨h11.trans h10.1, ?_⟩
    simpa using e11
  | @lam e he =>
    have hx : kinds s = .backslash :: .ident :: .arrow :: (e.yield ++ rest) := by
      rw [hk]; simp [yield_node, yields_cons, yield_tok, yield_nm]
    have hlen : (kinds s).length = e.yield.length + rest.length + 3 := by rw [hx]; simp
    refine f_no (by rw [h1.1, hx]; simp) fun s2 h2 => ?_
    replace h2 := h1.trans h2
    refine f_no (by rw [h2.1, hx]; simp) fun s3 h3 => ?_
    replace h3 := h2.trans h3
    refine f_no (by rw [h3.1, hx]; simp) fun s4 h4 => ?_
    replace h4 := h3.trans h4
    refine f_yes (h4.1.trans hx) fun s5 h5 => ?_
    replace h5 := h4.trans h5
    refine ok_bind (ok_start ?_)
    refine ok_bind (f_bump (h5.1.trans hx) fun s6 h6 e6 => ?_)
    simp only []
    refine f_no (by rw [h6]; simp) fun s7 h7 => ?_
    refine ok_bind (f_expectName (h7.1.trans h6) fun s8 h8 e8 => ?_)
    refine ok_bind (f_expect h8 fun s9 h9 e9 => ?_)
    refine ok_bind ((ih.ex s9 e _ he h9 hc (by rw [h9]; simp; omega)).mono fun _ s10 h10 => ?_)
    refine f_done h5 ((e6.trans h7.emits).trans ((e8.trans e9).trans h10.2)) fun s11 h11 e11 => ⟨h11.trans h10.1, ?_⟩
    simpa using e11
  | @lamFold e he =>
    have hx : kinds s = .backslash :: .fold :: .ident :: .arrow :: (e.yield ++ rest) := by
      rw [hk]; simp [yield_node, yields_cons, yield_tok, yield_nm]
    have hlen : (kinds s).length = e.yield.length + rest.length + 4 := by rw [hx]; simp
    refine f_no (by rw [h1.1, hx]; simp) fun s2 h2 => ?_
    replace h2 := h1.trans h2
    refine f_no (by rw [h2.1, hx]; simp) fun s3 h3 => ?_
    replace h3 := h2.trans h3
    refine f_no (by rw [h3.1, hx]; simp) fun s4 h4 => ?_
    replace h4 := h3.trans h4
    refine f_yes (h4.1.trans hx) fun s5 h5 => ?_
    replace h5 := h4.trans h5
    refine ok_bind (ok_start ?_)
    refine ok_bind (f_bump (h5.1.trans hx) fun s6 h6 e6 => ?_)
    simp only []
    refine f_yes h6 fun s7 h7 => ?_
    refine ok_bind (f_bump (h7.1.trans h6) fun s7' h7' e7' => ?_)
    refine ok_bind (f_expectName h7' fun s8 h8 e8 => ?_)
    refine ok_bind (f_expect h8 fun s9 h9 e9 => ?_)
    refine ok_bind ((ih.ex s9 e _ he h9 hc (by rw [h9]; simp; omega)).mono fun _ s10 h10 => ?_)
    refine f_done h5 ((e6.trans (h7.emits.trans e7')).trans ((e8.trans e9).trans h10.2)) fun s11 h11 e11 => ⟨h11.trans h10.1, ?_⟩
    simpa using e11
  | op hop =>
    obtain ⟨k, r, e, hst⟩ := hop.head
    have no : ∀ {s' k'}, exStart k' = false → Same s s' → (kinds s').head? ≠ some k' := by
      intro s' k' hk' hs ee
      rw [hs.1, hk, e] at ee
      simp only [List.cons_append, List.head?_cons, Option.some.injEq] at ee
      subst ee; rw [hst] at hk'; cases hk'
    refine f_no (no rfl h1) fun s2 h2 => ?_
    replace h2 := h1.trans h2
    refine f_no (no rfl h2) fun s3 h3 => ?_
    replace h3 := h2.trans h3
    refine f_no (no rfl h3) fun s4 h4 => ?_
    replace h4 := h3.trans h4
    refine f_no (no rfl h4) fun s5 h5 => ?_
    replace h5 := h4.trans h5
    refine (ih.op s5 t rest 0 0 hop cut_zero (h5.1.trans hk) hc.dot hc.ex (fun o l ho hl => ?_) (by rw [h5.1]; omega)).mono fun _ s6 h6 => ⟨h6.1, h5.emits.trans h6.2⟩
    have := hc.op o ho
    simp [isOp, hl] at this

theorem fwd_exprs : ∀ n, FwdExpr n
  | 0 => ⟨fun _ _ _ _ _ _ h => absurd h (by omega), fun _ _ _ _ _ _ _ h => absurd h (by omega), fun _ _ _ _ _ _ _ _ _ _ _ h => absurd h (by omega),
      fun _ _ _ _ _ _ h => absurd h (by omega), fun _ _ _ _ _ _ h => absurd h (by omega)⟩
  | n + 1 => have ih := fwd_exprs n; ⟨fwd_atom ih, fwd_app ih, fwd_op ih, fwd_case ih, fwd_ex ih⟩

end Tic.Grammar
