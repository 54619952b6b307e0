/-
The parser reads every tree of the grammar.
-/
import Verif.GrammarEmit
import Verif.ParserGrammar

namespace Tic.Grammar

open Tic.Parser

/-- The tokens of a list of trees. -/
abbrev yields (ts : List Syn) : List TokenKind := Syn.yield.go ts

theorem yields_append (a b : List Syn) : yields (a ++ b) = yields a ++ yields b := by
  induction a with
  | nil => simp [yields, Syn.yield.go]
  | cons c cs ih => simp only [yields, List.cons_append, Syn.yield.go] at *; rw [ih, List.append_assoc]

theorem yields_cons (a : Syn) (b : List Syn) : yields (a :: b) = a.yield ++ yields b := rfl
@[simp] theorem yields_nil : yields [] = [] := rfl
theorem yield_node (k) (b : List Syn) : (Syn.node k b).yield = yields b := by simp [Syn.yield]
theorem yield_tok (k) : (Syn.tok k).yield = [k] := by simp [Syn.yield]
theorem yield_nm : nm.yield = [.ident] := by simp [nm, Syn.yield, Syn.yield.go]

/-! ### Steps -/

theorem Same.emits {s s'} (h : Same s s') : Emits s s' [] := .of_eq h.2

theorem f_hint {h s} {Q : Unit → PState → Prop} (hq : ∀ s', Same s s' → Q () s') : Ok (hint h) s Q :=
  ⟨(), _, rfl, hq _ ⟨rfl, rfl⟩⟩

theorem f_at {t s} {Q : Bool → PState → Prop} (hq : ∀ s', Same s s' → Q ((kinds s).head? == some t) s') : Ok (at_ t) s Q := by
  obtain ⟨s', h1, h2, -⟩ := at_eq t s
  exact ⟨_, s', h1, hq s' h2⟩

theorem f_peek {s} {Q : Option TokenKind → PState → Prop} (hq : ∀ s', Same s s' → Q (kinds s).head? s') : Ok peek s Q := by
  obtain ⟨s', h1, h2, -⟩ := peek_eq s
  exact ⟨_, s', h1, hq s' h2⟩

theorem f_yes {α : Type} {t s r} {A B : P α} {Q : α → PState → Prop} (h : kinds s = t :: r) (hA : ∀ s', Same s s' → Ok A s' Q) :
    Ok (at_ t >>= fun b => if b = true then A else B) s Q := by
  refine ok_bind (f_at fun s' hs => ?_)
  rw [h]
  simpa using hA s' hs

theorem f_no {α : Type} {t s} {A B : P α} {Q : α → PState → Prop} (h : (kinds s).head? ≠ some t) (hB : ∀ s', Same s s' → Ok B s' Q) :
    Ok (at_ t >>= fun b => if b = true then A else B) s Q := by
  refine ok_bind (f_at fun s' hs => ?_)
  rw [if_neg (by simpa using h)]
  exact hB s' hs

theorem f_bumpAny {k s r} {Q : Unit → PState → Prop} (h : kinds s = k :: r) (hq : ∀ s', kinds s' = r → Emits s s' [.tok k] → Q () s') : Ok bumpAny s Q := by
  obtain ⟨s', h1, h2, h3⟩ := bumpAny_eq h
  exact ⟨_, s', h1, hq s' h2 (emits_tok h3)⟩

theorem f_bump {t s r} {Q : Unit → PState → Prop} (h : kinds s = t :: r) (hq : ∀ s', kinds s' = r → Emits s s' [.tok t] → Q () s') : Ok (bump t) s Q := by
  obtain ⟨s', h1, h2, h3⟩ := bump_eq h
  exact ⟨_, s', h1, hq s' h2 (emits_tok h3)⟩

theorem f_complete {s s' ts k} {Q : Nat → PState → Prop} (h : Emits (started s) s' ts)
    (hq : ∀ s'', kinds s'' = kinds s' → EmitsM s s'' s.events.length (.node k ts) → Q s.events.length s'') : Ok (complete s.events.length k) s' Q := by
  obtain ⟨s'', h1, h2, h3⟩ := complete_eq k h
  exact ⟨_, s'', h1, hq s'' h2 h3⟩

theorem f_bumpName {s r} {Q : Unit → PState → Prop} (h : kinds s = .ident :: r) (hq : ∀ s', kinds s' = r → Emits s s' [nm] → Q () s') : Ok bumpName s Q := by
  unfold bumpName
  refine ok_bind (ok_start ?_)
  refine ok_bind (f_bump (r := r) h fun s1 h1 e1 => ?_)
  exact ok_bind (f_complete e1 fun s2 h2 e2 => ok_pure (hq s2 (h2.trans h1) e2.emits))

theorem f_expect {t s r} {Q : Unit → PState → Prop} (h : kinds s = t :: r) (hq : ∀ s', kinds s' = r → Emits s s' [.tok t] → Q () s') : Ok (expect t) s Q := by
  unfold expect
  refine f_yes h fun s1 h1 => f_bump (h1.1.trans h) fun s2 h2 e2 => hq s2 h2 (h1.emits.trans e2)

theorem f_expectName {s r} {Q : Unit → PState → Prop} (h : kinds s = .ident :: r) (hq : ∀ s', kinds s' = r → Emits s s' [nm] → Q () s') : Ok expectName s Q := by
  unfold expectName
  refine f_yes h fun s1 h1 => f_bumpName (h1.1.trans h) fun s2 h2 e2 => hq s2 h2 (h1.emits.trans e2)

/-- Finishing a node after `complete`. -/
theorem f_doneM {s0 s1 s2 ts k} (h0 : Same s0 s1) (h : Emits (started s1) s2 ts) :
    Ok (complete s1.events.length k >>= fun m => (pure (some m) : P (Option Nat))) s2
      fun r s' => ∃ m, r = some m ∧ kinds s' = kinds s2 ∧ EmitsM s0 s' m (.node k ts) :=
  ok_bind (f_complete h fun s3 h3 e3 => ok_pure ⟨_, rfl, h3, e3.pre h0.2⟩)

theorem f_done {s0 s1 s2 ts k} {Q : Unit → PState → Prop} (h0 : Same s0 s1) (h : Emits (started s1) s2 ts)
    (hq : ∀ s', kinds s' = kinds s2 → Emits s0 s' [.node k ts] → Q () s') :
    Ok (complete s1.events.length k >>= fun _ => (pure () : P Unit)) s2 Q :=
  ok_bind (f_complete h fun s3 h3 e3 => ok_pure (hq _ h3 (e3.pre h0.2).emits))

theorem kinds_started (s) : kinds (started s) = kinds s := rfl

theorem f_leaf {s0 s1 t k r} (h0 : Same s0 s1) (hk : kinds s0 = t :: r) :
    Ok (do let m ← start; bump t; return some (← complete m k)) s1 fun x s' => ∃ m, x = some m ∧ kinds s' = r ∧ EmitsM s0 s' m (.node k [.tok t]) := by
  refine ok_bind (ok_start (ok_bind (f_bump (r := r) (h0.1.trans hk) fun s2 h2 e2 => ?_)))
  exact (f_doneM h0 e2).mono fun x s' ⟨m, a, b, c⟩ => ⟨m, a, b.trans h2, c⟩

theorem f_leafAny {s0 s1 t k r} (h0 : Same s0 s1) (hk : kinds s0 = t :: r) :
    Ok (do let m ← start; bumpAny; return some (← complete m k)) s1 fun x s' => ∃ m, x = some m ∧ kinds s' = r ∧ EmitsM s0 s' m (.node k [.tok t]) := by
  refine ok_bind (ok_start (ok_bind (f_bumpAny (r := r) (h0.1.trans hk) fun s2 h2 e2 => ?_)))
  exact (f_doneM h0 e2).mono fun x s' ⟨m, a, b, c⟩ => ⟨m, a, b.trans h2, c⟩

/-- A loop reading a list of trees. -/
theorem f_while {cond : P Bool} {body : P Unit} {G : Syn → Prop} {rest : List TokenKind} {N : Nat}
    (stop : ∀ s, kinds s = rest → (kinds s).length ≤ N → Ok cond s fun b s' => b = false ∧ Same s s')
    (step : ∀ s a ts, G a → (∀ b ∈ ts, G b) → kinds s = a.yield ++ (yields ts ++ rest) → (kinds s).length ≤ N →
      Ok cond s fun b s1 => b = true ∧ Ok body s1 fun _ s2 => kinds s2 = yields ts ++ rest ∧ Emits s s2 [a]) :
    ∀ (ts : List Syn), (∀ a ∈ ts, G a) → ∀ n s, kinds s = yields ts ++ rest → (kinds s).length ≤ N → ts.length < n →
      Ok (whileM n cond body) s fun _ s' => kinds s' = rest ∧ Emits s s' ts
  | [], _, n + 1, s, hk, hN, _ => by
    unfold whileM loopM
    refine ok_bind (ok_bind ((stop s hk hN).mono fun b s1 h1 => ?_))
    rw [h1.1]
    simp only [Bool.false_eq_true, if_false]
    exact ok_pure (ok_pure ⟨h1.2.1.trans hk, h1.2.emits⟩)
  | a :: ts, hG, n + 1, s, hk, hN, hn => by
    have hk' : kinds s = a.yield ++ (yields ts ++ rest) := by rw [hk, yields_cons, List.append_assoc]
    unfold whileM loopM
    refine ok_bind (ok_bind ((step s a ts (hG a (by simp)) (fun b hb => hG b (by simp [hb])) hk' hN).mono fun b s1 h1 => ?_))
    rw [h1.1]
    simp only [if_true]
    refine ok_bind (h1.2.mono fun _ s2 h2 => ok_pure ?_)
    have := f_while stop step ts (fun b hb => hG b (by simp [hb])) n s2 h2.1 (by rw [h2.1]; rw [hk'] at hN; simp at hN ⊢; omega) (by simp at hn; omega)
    exact this.mono fun _ s3 h3 => ⟨h3.1, h2.2.trans h3.2⟩

/-! ### Types -/

/-- The tokens that start an argument of a type. -/
def tyStart : TokenKind → Bool
  | .int | .bool | .stringTy | .ident | .leftParen | .rec_ => true
  | _ => false

/-- The first token is none of these. -/
def Not (f : TokenKind → Bool) (r : List TokenKind) : Prop := ∀ k, r.head? = some k → f k = false

def isDot : TokenKind → Bool
  | .dot => true
  | _ => false
def isArrow : TokenKind → Bool
  | .arrow => true
  | _ => false

theorem Path.head {p} (h : Path p) : ∃ r, yields p = .ident :: r := by
  cases h <;> exact ⟨_, by simp only [yields, Syn.yield.go, yield_nm]; rfl⟩

theorem AtomTy.head {t} (h : AtomTy t) : ∃ k r, t.yield = k :: r ∧ tyStart k = true ∧ k ≠ .rec_ := by
  cases h with
  | named hp => obtain ⟨r, e⟩ := hp.head; exact ⟨_, r, by rw [yield_node, e], rfl, by decide⟩
  | paren _ => exact ⟨_, _, by rw [yield_node, yields_cons, yield_tok]; rfl, rfl, by decide⟩
  | _ => exact ⟨_, _, by rw [yield_node, yields_cons, yield_tok]; rfl, rfl, by decide⟩

theorem AppTy.head {t} (h : AppTy t) : ∃ k r, t.yield = k :: r ∧ tyStart k = true ∧ k ≠ .rec_ := by
  cases h with
  | atom h => exact h.head
  | app hp _ => obtain ⟨r, e⟩ := hp.head; exact ⟨_, _, by rw [yield_node, yields_append, e]; rfl, rfl, by decide⟩

theorem Ty.head {t} (h : Ty t) : ∃ k r, t.yield = k :: r ∧ tyStart k = true ∧ k ≠ .rec_ := by
  cases h with
  | app h => exact h.head
  | fn h _ => obtain ⟨k, r, e, h1, h2⟩ := h.head; exact ⟨k, _, by rw [yield_node, yields_cons, e]; rfl, h1, h2⟩

theorem f_noTy {n s} (h : Not tyStart (kinds s)) (hn : 1 ≤ n) : Ok (atomType n) s fun r s' => r = none ∧ Same s s' := by
  obtain ⟨n, rfl⟩ : ∃ m, n = m + 1 := ⟨n - 1, by omega⟩
  have no : ∀ {s1 k}, tyStart k = true → Same s s1 → (kinds s1).head? ≠ some k := by
    intro s1 k hk hs e
    rw [hs.1] at e
    rw [h k e] at hk; cases hk
  unfold atomType
  refine ok_bind (f_hint fun s1 h1 => ?_)
  refine f_no (no rfl h1) fun s2 h2 => ?_
  replace h2 := h1.trans h2
  refine f_no (no rfl h2) fun s3 h3 => ?_
  replace h3 := h2.trans h3
  refine f_no (no rfl h3) fun s4 h4 => ?_
  replace h4 := h3.trans h4
  refine f_no (no rfl h4) fun s5 h5 => ?_
  replace h5 := h4.trans h5
  refine f_no (no rfl h5) fun s6 h6 => ?_
  replace h6 := h5.trans h6
  refine f_no (no rfl h6) fun s7 h7 => ?_
  exact ok_pure ⟨rfl, h6.trans h7⟩

/-- A path, up to the end of it. -/
theorem f_path {α : Type} {s rest} {p : List Syn} {A B : P α} {Q : α → PState → Prop} (hp : Path p) (hk : kinds s = yields p ++ rest) (hd : Not isDot rest)
    (hA : ∀ s', p = [nm, .tok .dot, nm] → kinds s' = rest → Emits s s' p → Ok A s' Q)
    (hB : ∀ s', p = [nm] → kinds s' = rest → Emits s s' p → Ok B s' Q) :
    Ok (bumpName >>= fun _ => at_ .dot >>= fun b => if b = true then (bump .dot >>= fun _ => expectName >>= fun _ => A) else B) s Q := by
  cases hp with
  | plain =>
    rw [yields_cons, yield_nm] at hk
    refine ok_bind (f_bumpName hk fun s1 h1 e1 => ?_)
    simp only [yields_nil, List.nil_append] at h1
    refine f_no (fun e => by have := hd .dot (by rw [h1] at e; exact e); cases this) fun s2 h2 => ?_
    exact hB s2 rfl (h2.1.trans h1) (by simpa using e1.trans h2.emits)
  | inModule =>
    simp only [yields_cons, yield_nm, yield_tok, yields_nil] at hk
    refine ok_bind (f_bumpName hk fun s1 h1 e1 => ?_)
    refine f_yes h1 fun s2 h2 => ?_
    refine ok_bind (f_bump (h2.1.trans h1) fun s3 h3 e3 => ?_)
    refine ok_bind (f_expectName h3 fun s4 h4 e4 => ?_)
    exact hA s4 rfl h4 (by simpa using (e1.trans (h2.emits.trans e3)).trans e4)

theorem not_append {f : TokenKind → Bool} {ts : List Syn} {G : Syn → Prop} {rest} (hG : ∀ a ∈ ts, G a) (hh : ∀ a, G a → ∃ k r, a.yield = k :: r ∧ f k = false)
    (hr : Not f rest) : Not f (yields ts ++ rest) := by
  cases ts with
  | nil => simpa using hr
  | cons a ts =>
    obtain ⟨k, r, e, hk⟩ := hh a (hG a (by simp))
    intro k' h
    rw [yields_cons, e] at h
    simp only [List.cons_append, List.head?_cons, Option.some.injEq] at h
    rw [← h]; exact hk

theorem atomTy_noDot {a} (h : AtomTy a) : ∃ k r, a.yield = k :: r ∧ isDot k = false := by
  obtain ⟨k, r, e, h1, -⟩ := h.head
  refine ⟨k, r, e, ?_⟩
  cases k <;> simp_all [tyStart, isDot]

theorem yield_pos {a : Syn} {k r} (h : a.yield = k :: r) : 1 ≤ a.yield.length := by rw [h]; simp

theorem len_yields {G : Syn → Prop} (hh : ∀ a, G a → 1 ≤ a.yield.length) : ∀ (ts : List Syn), (∀ a ∈ ts, G a) → ts.length ≤ (yields ts).length
  | [], _ => by simp
  | a :: ts, h => by
    have h1 := hh a (h a (by simp))
    have h2 := len_yields hh ts fun b hb => h b (by simp [hb])
    rw [yields_cons]
    simp only [List.length_cons, List.length_append]
    omega

theorem Same.refl (s) : Same s s := ⟨rfl, rfl⟩

theorem fwd_types : ∀ n,
    (∀ s t rest, AtomTy t → kinds s = t.yield ++ rest → Not isDot rest → 10 * (kinds s).length + 1 ≤ n →
      Ok (atomType n) s fun r s' => ∃ m, r = some m ∧ kinds s' = rest ∧ EmitsM s s' m t) ∧
    (∀ s t rest, AppTy t → kinds s = t.yield ++ rest → Not isDot rest → Not tyStart rest → 10 * (kinds s).length + 2 ≤ n →
      Ok (nonFnType n) s fun r s' => ∃ m, r = some m ∧ kinds s' = rest ∧ EmitsM s s' m t) ∧
    (∀ s t rest, Ty t → kinds s = t.yield ++ rest → Not isDot rest → Not tyStart rest → Not isArrow rest → 10 * (kinds s).length + 3 ≤ n →
      Ok (type_ n) s fun _ s' => kinds s' = rest ∧ Emits s s' [t])
  | 0 => ⟨fun _ _ _ _ _ _ h => absurd h (by omega), fun _ _ _ _ _ _ _ h => absurd h (by omega), fun _ _ _ _ _ _ _ _ h => absurd h (by omega)⟩
  | n + 1 => by
    obtain ⟨ih1, ih2, ih3⟩ := fwd_types n
    refine ⟨fun s t rest ht hk hd hn => ?_, fun s t rest ht hk hd hy hn => ?_, fun s t rest ht hk hd hy ha hn => ?_⟩
    · unfold atomType
      refine ok_bind (f_hint fun s1 h1 => ?_)
      cases ht with
      | int =>
        simp only [yield_node, yields_cons, yield_tok, yields_nil] at hk
        exact f_yes (h1.1.trans hk) fun s2 h2 => f_leaf (h1.trans h2) hk
      | bool =>
        simp only [yield_node, yields_cons, yield_tok, yields_nil] at hk
        refine f_no (by rw [h1.1, hk]; simp) fun s2 h2 => ?_
        replace h2 := h1.trans h2
        exact f_yes (h2.1.trans hk) fun s3 h3 => f_leaf (h2.trans h3) hk
      | string =>
        simp only [yield_node, yields_cons, yield_tok, yields_nil] at hk
        refine f_no (by rw [h1.1, hk]; simp) fun s2 h2 => ?_
        replace h2 := h1.trans h2
        refine f_no (by rw [h2.1, hk]; simp) fun s3 h3 => ?_
        replace h3 := h2.trans h3
        exact f_yes (h3.1.trans hk) fun s4 h4 => f_leaf (h3.trans h4) hk
      | @named p hp =>
        obtain ⟨r, e⟩ := hp.head
        rw [yield_node] at hk
        have hx : kinds s = .ident :: (r ++ rest) := by rw [hk, e]; rfl
        refine f_no (by rw [h1.1, hx]; simp) fun s2 h2 => ?_
        replace h2 := h1.trans h2
        refine f_no (by rw [h2.1, hx]; simp) fun s3 h3 => ?_
        replace h3 := h2.trans h3
        refine f_no (by rw [h3.1, hx]; simp) fun s4 h4 => ?_
        replace h4 := h3.trans h4
        refine f_yes (h4.1.trans hx) fun s5 h5 => ?_
        replace h5 := h4.trans h5
        refine ok_bind (ok_start ?_)
        have fin : ∀ s', kinds s' = rest → Emits (started s5) s' p → Ok (complete s5.events.length .namedType >>= fun m => (pure (some m) : P (Option Nat))) s'
            fun r s' => ∃ m, r = some m ∧ kinds s' = rest ∧ EmitsM s s' m (.node .namedType p) := fun s' h6 e6 =>
          (f_doneM (k := .namedType) h5 e6).mono fun x s' ⟨m, a, b, c⟩ => ⟨m, a, b.trans h6, c⟩
        exact f_path hp (h5.1.trans hk) hd (fun s' _ => fin s') fun s' _ => fin s'
      | @paren t ht =>
        simp only [yield_node, yields_cons, yield_tok, yields_nil] at hk
        have hx : kinds s = .leftParen :: (t.yield ++ (.rightParen :: rest)) := by rw [hk]; simp
        refine f_no (by rw [h1.1, hx]; simp) fun s2 h2 => ?_
        replace h2 := h1.trans h2
        refine f_no (by rw [h2.1, hx]; simp) fun s3 h3 => ?_
        replace h3 := h2.trans h3
        refine f_no (by rw [h3.1, hx]; simp) fun s4 h4 => ?_
        replace h4 := h3.trans h4
        refine f_no (by rw [h4.1, hx]; simp) fun s5 h5 => ?_
        replace h5 := h4.trans h5
        refine f_yes (h5.1.trans hx) fun s6 h6 => ?_
        replace h6 := h5.trans h6
        refine ok_bind (ok_start ?_)
        refine ok_bind (f_bump (h6.1.trans hx) fun s7 h7 e7 => ?_)
        refine ok_bind ((ih3 s7 _ _ ht h7 (by simp [Not, isDot]) (by simp [Not, tyStart]) (by simp [Not, isArrow]) ?_).mono fun _ s8 h8 => ?_)
        · rw [h7]; rw [hx] at hn; simp only [List.length_cons] at hn ⊢; omega
        refine ok_bind (f_expect h8.1 fun s9 h9 e9 => ?_)
        exact (f_doneM h6 ((e7.trans h8.2).trans e9)).mono fun x s' ⟨m, a, b, c⟩ => ⟨m, a, b.trans h9, c⟩
    · unfold nonFnType
      have named : ∀ p args, Path p → (∀ a ∈ args, AtomTy a) → kinds s = yields p ++ (yields args ++ rest) → Ok (do
          if ← at_ .ident then
            let m ← start
            bumpName
            if ← at_ .dot then
              bump .dot
              expectName
            whileM n (do return (← atomType n).isSome) (pure ())
            return some (← complete m .namedType)
          else atomType n) s fun r s' => ∃ m, r = some m ∧ kinds s' = rest ∧ EmitsM s s' m (.node .namedType (p ++ args)) := by
        intro p args hp hargs hk
        obtain ⟨r, e⟩ := hp.head
        have hx : kinds s = .ident :: (r ++ (yields args ++ rest)) := by rw [hk, e]; rfl
        refine f_yes hx fun s1 h1 => ?_
        refine ok_bind (ok_start ?_)
        have fin : ∀ s', kinds s' = yields args ++ rest → Emits (started s1) s' p → Ok (do
            whileM n (do return (← atomType n).isSome) (pure ())
            return some (← complete s1.events.length .namedType)) s' fun r s' => ∃ m, r = some m ∧ kinds s' = rest ∧ EmitsM s s' m (.node .namedType (p ++ args)) := by
          intro s2 h2 e2
          have hl : (kinds s2).length + 1 ≤ (kinds s).length := by rw [h2, hx]; simp
          refine ok_bind (Ok.mono (f_while (G := AtomTy) (rest := rest) (N := (kinds s2).length) ?_ ?_ args hargs n s2 h2 (Nat.le_refl _) ?_) fun _ s3 h3 => ?_)
          · intro s3 h3 _
            refine ok_bind ((f_noTy (by rw [h3]; exact hy) (by omega)).mono fun r s4 h4 => ok_pure ?_)
            rw [h4.1]; exact ⟨rfl, h4.2⟩
          · intro s3 a ts ha hts h3 hN
            refine ok_bind ((ih1 s3 a _ ha h3 (not_append hts (fun a h => atomTy_noDot h) hd) (by omega)).mono fun r s4 h4 => ok_pure ?_)
            obtain ⟨m, rfl, h5, e5⟩ := h4
            exact ⟨rfl, ok_pure ⟨h5, e5.emits⟩⟩
          · have := len_yields (G := AtomTy) (fun a h => by obtain ⟨k, r, e, -⟩ := h.head; exact yield_pos e) args hargs
            rw [h2] at hl
            simp only [List.length_append] at hl
            omega
          · exact (f_doneM (k := .namedType) h1 (e2.trans h3.2)).mono fun x s' ⟨m, a, b, c⟩ => ⟨m, a, b.trans h3.1, c⟩
        exact f_path hp (h1.1.trans hk) (not_append hargs (fun a h => atomTy_noDot h) hd) (fun s' _ => fin s') fun s' _ => fin s'
      cases ht with
      | app hp hargs => exact named _ _ hp hargs (by rw [hk, yield_node, yields_append, List.append_assoc])
      | atom h =>
        cases h with
        | named hp => simpa using named _ [] hp (by simp) (by rw [hk, yield_node]; rfl)
        | int =>
          refine f_no (by rw [hk]; simp [yield_node, yields_cons, yield_tok]) fun s1 h1 => ?_
          exact (ih1 s1 _ rest .int (h1.1.trans hk) hd (by rw [h1.1]; omega)).mono fun r s' ⟨m, a, b, c⟩ => ⟨m, a, b, c.pre h1.2⟩
        | bool =>
          refine f_no (by rw [hk]; simp [yield_node, yields_cons, yield_tok]) fun s1 h1 => ?_
          exact (ih1 s1 _ rest .bool (h1.1.trans hk) hd (by rw [h1.1]; omega)).mono fun r s' ⟨m, a, b, c⟩ => ⟨m, a, b, c.pre h1.2⟩
        | string =>
          refine f_no (by rw [hk]; simp [yield_node, yields_cons, yield_tok]) fun s1 h1 => ?_
          exact (ih1 s1 _ rest .string (h1.1.trans hk) hd (by rw [h1.1]; omega)).mono fun r s' ⟨m, a, b, c⟩ => ⟨m, a, b, c.pre h1.2⟩
        | paren ht =>
          refine f_no (by rw [hk]; simp [yield_node, yields_cons, yield_tok]) fun s1 h1 => ?_
          exact (ih1 s1 _ rest (.paren ht) (h1.1.trans hk) hd (by rw [h1.1]; omega)).mono fun r s' ⟨m, a, b, c⟩ => ⟨m, a, b, c.pre h1.2⟩
    · unfold type_
      refine ok_bind (f_hint fun s1 h1 => ?_)
      cases ht with
      | app ht =>
        refine ok_bind ((ih2 s1 t rest ht (h1.1.trans hk) hd hy (by rw [h1.1]; omega)).mono fun r s2 h2 => ?_)
        obtain ⟨m, rfl, h2, e2⟩ := h2
        simp only []
        refine f_no (fun e => by have := ha .arrow (by rw [h2] at e; exact e); cases this) fun s3 h3 => ?_
        exact ok_pure ⟨h3.1.trans h2, by simpa using (h1.emits.trans e2.emits).trans h3.emits⟩
      | @fn a b hta htb =>
        have hk' : kinds s = a.yield ++ (.arrow :: (b.yield ++ rest)) := by
          rw [hk]; simp [yield_node, yields_cons, yield_tok]
        refine ok_bind ((ih2 s1 a _ hta (h1.1.trans hk') (by simp [Not, isDot]) (by simp [Not, tyStart]) (by rw [h1.1]; omega)).mono fun r s2 h2 => ?_)
        obtain ⟨m, rfl, h2, e2⟩ := h2
        simp only []
        refine f_yes h2 fun s3 h3 => ?_
        obtain ⟨s4, p1, p2, p3, p4⟩ := precede_eq e2 h3.emits
        refine ok_bind ⟨_, s4, p1, ?_⟩
        refine ok_bind (f_bump (p2.trans (h3.1.trans h2)) fun s5 h5 e5 => ?_)
        refine ok_bind ((ih3 s5 b rest htb h5 hd hy ha ?_).mono fun _ s6 h6 => ?_)
        · rw [h5]; rw [hk'] at hn; simp at hn ⊢; omega
        obtain ⟨s7, q1, q2, q3⟩ := p4 s6 .fnType _ (e5.trans h6.2)
        refine ok_bind ⟨_, s7, q1, ok_pure ⟨q2.trans h6.1, ?_⟩⟩
        have := (q3.pre h1.2).emits
        simpa using this

end Tic.Grammar
