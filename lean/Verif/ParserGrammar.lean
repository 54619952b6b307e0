/-
What the grammar functions of the parser do.
-/
import Verif.ParserSpec

namespace Tic.Parser

theorem ok_ifAt {α : Type} {t s} {A B : P α} {Q : α → PState → Prop} (ht : t ≠ .error)
    (hA : ∀ s', Adv s s' → Next s' t → Ok A s' Q) (hB : ∀ s', Adv s s' → Exp s' → Ok B s' Q) :
    Ok (at_ t >>= fun b => if b = true then A else B) s Q := by
  refine ok_bind (ok_at fun b s' h _ _ he hb => ?_)
  by_cases hbt : b = true
  · rw [if_pos hbt]; exact hA s' h (hb hbt)
  · rw [if_neg hbt]; exact hB s' h (.inr (he ht))

theorem ok_expect {t s} {Q : Unit → PState → Prop} (ht : t ≠ .error) (hq : ∀ s', Adv s s' → Q () s') : Ok (expect t) s Q := by
  unfold expect
  exact ok_ifAt ht (fun s1 h1 hn => ok_bump hn fun s2 h2 => hq _ (h1.trans h2.adv))
    (fun s1 h1 he => ok_emitError he fun s2 h2 _ _ => hq _ (h1.trans h2))

theorem ok_expectName {s} {Q : Unit → PState → Prop} (hq : ∀ s', Adv s s' → Q () s') : Ok expectName s Q := by
  unfold expectName
  exact ok_ifAt (by decide) (fun s1 h1 hn => ok_bumpName hn fun s2 h2 => hq _ (h1.trans h2.adv))
    (fun s1 h1 he => ok_emitError he fun s2 h2 _ _ => hq _ (h1.trans h2))

theorem cnt_toks {s s' : PState} (h : s'.toks = s.toks) : cnt s' = cnt s := by simp [cnt, h]

theorem ok_errorRecover {h s} {Q : Unit → PState → Prop} (he : Exp s) (hq : ∀ s', Adv s s' → Q () s') : Ok (errorRecover h) s Q := by
  unfold errorRecover
  refine ok_bind (ok_emitError he fun s1 h1 _ _ => ?_)
  refine ok_bind (ok_peek fun r s2 h2 => ?_)
  cases r with
  | none => exact ok_pure (hq _ (h1.trans h2.adv))
  | some tok =>
    simp only []
    split
    · refine ok_bind (ok_start ?_)
      refine ok_bind (ok_bumpAny (next_started (h2.tok tok rfl)) fun s3 h3 => ?_)
      refine ok_bind (ok_complete h3.adv fun s4 h4 _ _ _ => ok_pure (hq _ ((h1.trans h2.adv).trans h4.1)))
    · exact ok_pure (hq _ (h1.trans h2.adv))

theorem ok_loop {σ β : Type} {body : σ → P (σ ⊕ β)} {I : σ → PState → Prop} {Q : β → PState → Prop}
    (hb : ∀ a s, I a s → Ok (body a) s fun r s' => (∀ a', r = .inl a' → I a' s' ∧ cnt s' < cnt s) ∧ (∀ b, r = .inr b → Q b s')) :
    ∀ n a s, I a s → cnt s < n → Ok (loopM body n a) s Q
  | 0, _, _, _, h => absurd h (Nat.not_lt_zero _)
  | n + 1, a, s, hI, h => by
    unfold loopM
    refine ok_bind ((hb a s hI).mono fun r s' hr => ?_)
    cases r with
    | inl a' =>
      obtain ⟨h1, h2⟩ := hr.1 a' rfl
      exact ok_loop hb n a' s' h1 (by omega)
    | inr b => exact ok_pure (hr.2 b rfl)

/-- A loop that goes on while there is progress. -/
theorem ok_while {n cond body s} {Q : Unit → PState → Prop}
    (hc : ∀ s1, Adv s s1 → Ok cond s1 fun b s2 => Adv s1 s2 ∧ (b = true → Ok body s2 fun _ s3 => Adv s2 s3 ∧ cnt s3 < cnt s1))
    (hn : cnt s < n) (hq : ∀ s', Adv s s' → Q () s') : Ok (whileM n cond body) s Q := by
  unfold whileM
  refine ok_loop (I := fun _ s1 => Adv s s1) (fun _ s1 h1 => ?_) n () s (.refl s) hn
  refine ok_bind ((hc s1 h1).mono fun b s2 h2 => ?_)
  by_cases hb : b = true
  · rw [if_pos hb]
    refine ok_bind ((h2.2 hb).mono fun _ s3 h3 => ok_pure ⟨fun _ _ => ⟨(h1.trans h2.1).trans h3.1, h3.2⟩, fun _ h => nomatch h⟩)
  · rw [if_neg hb]
    exact ok_pure ⟨(fun _ h => nomatch h), fun _ _ => hq _ (h1.trans h2.1)⟩

theorem ok_whileAt {n t body s} {Q : Unit → PState → Prop} (ht : t ≠ .error)
    (hb : ∀ s1, Adv s s1 → Next s1 t → Ok body s1 fun _ s2 => Fwd s1 s2)
    (hn : cnt s < n) (hq : ∀ s', Adv s s' → Q () s') : Ok (whileM n (at_ t) body) s Q := by
  refine ok_while (fun s1 h1 => ok_at fun b s2 h2 _ _ _ hx => ⟨h2, fun hbt => (hb s2 (h1.trans h2) (hx hbt)).mono fun _ s3 h3 => ⟨h3.1, ?_⟩⟩) hn hq
  exact Nat.lt_of_lt_of_le h3.2 h2.cnt_le

/-- What a grammar function giving a node does. -/
def Node (s : PState) (r : Option Nat) (s' : PState) : Prop :=
  (∀ m, r = some m → AdvM s s' m ∧ cnt s' < cnt s) ∧ (r = none → Adv s s' ∧ Exp s')

theorem Node.none_ {s s'} (h : Adv s s') (he : Exp s') : Node s none s' := ⟨(fun _ h => nomatch h), fun _ => ⟨h, he⟩⟩

/-- Finishing a node that was started at `s1` after consuming something. -/
theorem ok_finish {s0 s1 s2 k} (h0 : Adv s0 s1) (h : Fwd (started s1) s2) :
    Ok (complete s1.events.length k >>= fun m => (pure (some m) : P (Option Nat))) s2 fun r s' => Node s0 r s' := by
  refine ok_bind (ok_complete h.adv fun s3 h3 ht _ _ => ok_pure ⟨fun m hm => ?_, fun h => nomatch h⟩)
  cases hm
  refine ⟨h0.transM h3, ?_⟩
  have := h.2
  have := h0.cnt_le
  rw [cnt_toks ht]
  rw [cnt_started] at *
  omega

theorem ok_finish' {s0 s1 s2 k} {Q : Unit → PState → Prop} (h0 : Adv s0 s1) (h : Adv (started s1) s2) (hq : ∀ s', Adv s0 s' → cnt s' = cnt s2 → Q () s') :
    Ok (complete s1.events.length k >>= fun _ => (pure () : P Unit)) s2 Q :=
  ok_bind (ok_complete h fun _ h3 ht _ _ => ok_pure (hq _ (h0.trans h3.1) (cnt_toks ht)))

theorem ok_leaf {s0 s1 t k} (h0 : Adv s0 s1) (hn : Next s1 t) :
    Ok (do let m ← start; bump t; return some (← complete m k)) s1 fun r s' => Node s0 r s' :=
  ok_bind (ok_start (ok_bind (ok_bump (next_started hn) fun _ h2 => ok_finish h0 h2)))

theorem ok_leafAny {s0 s1 t k} (h0 : Adv s0 s1) (hn : Next s1 t) :
    Ok (do let m ← start; bumpAny; return some (← complete m k)) s1 fun r s' => Node s0 r s' :=
  ok_bind (ok_start (ok_bind (ok_bumpAny (next_started hn) fun _ h2 => ok_finish h0 h2)))

theorem types_ok : ∀ n,
    (∀ s, 10 * cnt s + 1 ≤ n → Ok (atomType n) s fun r s' => Node s r s') ∧
    (∀ s, 10 * cnt s + 2 ≤ n → Ok (nonFnType n) s fun r s' => Node s r s') ∧
    (∀ s, 10 * cnt s + 3 ≤ n → Ok (type_ n) s fun _ s' => Adv s s')
  | 0 => ⟨fun _ h => absurd h (by omega), fun _ h => absurd h (by omega), fun _ h => absurd h (by omega)⟩
  | n + 1 => by
    obtain ⟨ih1, ih2, ih3⟩ := types_ok n
    refine ⟨fun s hn => ?_, fun s hn => ?_, fun s hn => ?_⟩
    · unfold atomType
      refine ok_bind (ok_hint fun s1 h1 _ _ _ => ?_)
      refine ok_ifAt (by decide) (fun s2 h2 hx => ok_leaf (h1.trans h2) hx) fun s2 h2 _ => ?_
      refine ok_ifAt (by decide) (fun s3 h3 hx => ok_leaf ((h1.trans h2).trans h3) hx) fun s3 h3 _ => ?_
      refine ok_ifAt (by decide) (fun s4 h4 hx => ok_leaf (((h1.trans h2).trans h3).trans h4) hx) fun s4 h4 _ => ?_
      have h14 := ((h1.trans h2).trans h3).trans h4
      refine ok_ifAt (by decide) (fun s5 h5 hx => ?_) fun s5 h5 _ => ?_
      · refine ok_bind (ok_start ?_)
        refine ok_bind (ok_bumpName (next_started hx) fun s6 h6 => ?_)
        simp only []
        refine ok_ifAt (by decide) (fun s7 h7 hx => ?_) fun s7 h7 _ => ?_
        · refine ok_bind (ok_bump hx fun s8 h8 => ?_)
          refine ok_bind (ok_expectName fun s9 h9 => ?_)
          exact ok_finish (h14.trans h5) ((h6.trans h7).trans (h8.adv.trans h9))
        · exact ok_finish (h14.trans h5) (h6.trans h7)
      · have h15 := h14.trans h5
        refine ok_ifAt (by decide) (fun s6 h6 hx => ?_) fun s6 h6 _ => ?_
        · refine ok_bind (ok_start ?_)
          refine ok_bind (ok_bump (next_started hx) fun s7 h7 => ?_)
          refine ok_bind ((ih3 s7 ?_).mono fun _ s8 h8 => ?_)
          · have := h7.2; have := (h15.trans h6).cnt_le; rw [cnt_started] at *; omega
          refine ok_bind (ok_expect (by decide) fun s9 h9 => ?_)
          exact ok_finish (h15.trans h6) (h7.trans (h8.trans h9))
        · refine ok_bind (ok_at fun b s7 h7 _ _ he hb => ?_)
          replace he : Exp s7 := .inr (he (by decide))
          by_cases hbt : b = true
          · rw [if_pos hbt]
            have hx := hb hbt
            refine ok_bind (ok_emitError (s := s7) ?_ fun s8 h8 hk _ => ?_)
            · exact he
            exact ok_leaf (((h15.trans h6).trans h7).trans h8) (hk _ (by decide) hx)
          · rw [if_neg hbt]
            exact ok_pure (.none_ ((h15.trans h6).trans h7) he)
    · unfold nonFnType
      refine ok_ifAt (by decide) (fun s1 h1 hx => ?_) fun s1 h1 _ => ?_
      · refine ok_bind (ok_start ?_)
        refine ok_bind (ok_bumpName (next_started hx) fun s2 h2 => ?_)
        have args : ∀ s3, Adv s2 s3 → Ok (do
            whileM n (do return (← atomType n).isSome) (pure ())
            return some (← complete s1.events.length .namedType)) s3 fun r s' => Node s r s' := by
          intro s3 h3
          have hc := (h2.trans h3).2
          have hc1 := h1.cnt_le
          rw [cnt_started] at hc
          refine ok_bind (ok_while (fun s4 h4 => ?_) (by omega) fun s4 h4 => ok_finish h1 ((h2.trans h3).trans h4))
          refine ok_bind ((ih1 s4 (by have := h4.cnt_le; omega)).mono fun r s5 h5 => ok_pure ?_)
          cases r with
          | none => exact ⟨(h5.2 rfl).1, (fun h => nomatch h)⟩
          | some m => exact ⟨(h5.1 m rfl).1.1, fun _ => ok_pure ⟨.refl _, (h5.1 m rfl).2⟩⟩
        simp only []
        refine ok_ifAt (by decide) (fun s3 h3 hx => ?_) fun s3 h3 _ => args s3 h3
        refine ok_bind (ok_bump hx fun s4 h4 => ?_)
        refine ok_bind (ok_expectName fun s5 h5 => ?_)
        exact args s5 (h3.trans (h4.adv.trans h5))
      · refine (ih1 s1 (by have := h1.cnt_le; omega)).mono fun r s2 h2 => ⟨fun m hm => ?_, fun hm => ?_⟩
        · have := h2.1 m hm
          have := h1.cnt_le
          exact ⟨h1.transM (h2.1 m hm).1, by omega⟩
        · exact ⟨h1.trans (h2.2 hm).1, (h2.2 hm).2⟩
    · unfold type_
      refine ok_bind (ok_hint fun s1 h1 _ _ _ => ?_)
      have hc := h1.cnt_le
      refine ok_bind ((ih2 s1 (by omega)).mono fun r s2 h2 => ?_)
      cases r with
      | none => exact ok_errorRecover (h2.2 rfl).2 fun s3 h3 => h1.trans ((h2.2 rfl).1.trans h3)
      | some m =>
        obtain ⟨hm, hc2⟩ := h2.1 m rfl
        simp only []
        refine ok_ifAt (by decide) (fun s3 h3 hx => ?_) fun s3 h3 _ => ok_pure (h1.trans (hm.1.trans h3))
        refine ok_bind (ok_precede (hm.trans h3) fun s4 ht hcomp _ _ => ?_)
        have hx' : Next s4 .arrow := by obtain ⟨a, b, h⟩ := hx; exact ⟨a, b, by rw [ht, h]⟩
        refine ok_bind (ok_bump hx' fun s5 h5 => ?_)
        refine ok_bind ((ih3 s5 ?_).mono fun _ s6 h6 => ?_)
        · have := h5.2; rw [cnt_toks ht] at this; have := h3.cnt_le; omega
        refine ok_bind (hcomp _ _ _ (h5.adv.trans h6) fun s7 h7 _ => ok_pure (h1.trans h7.1))

theorem ok_type {n s} {Q : Unit → PState → Prop} (hn : 10 * cnt s + 3 ≤ n) (hq : ∀ s', Adv s s' → Q () s') : Ok (type_ n) s Q :=
  ((types_ok n).2.2 s hn).mono fun _ => hq

/-- An optional type annotation. -/
theorem ok_annot {n s} {k : Unit → P Unit} {Q : Unit → PState → Prop} (hn : 10 * cnt s + 3 ≤ n)
    (hk : ∀ s', Adv s s' → Ok (k ()) s' Q) :
    Ok (at_ .colon >>= fun b => if b = true then (bump .colon >>= fun _ => type_ n >>= k) else k ()) s Q := by
  refine ok_ifAt (by decide) (fun s1 h1 hx => ?_) fun s1 h1 _ => hk s1 h1
  refine ok_bind (ok_bump hx fun s2 h2 => ?_)
  have := h2.2; have := h1.cnt_le
  exact ok_bind (ok_type (by omega) fun s3 h3 => hk s3 (h1.trans (h2.adv.trans h3)))

/-- An optional `.name`. -/
theorem ok_dotName {α : Type} {s} {k : Unit → P α} {Q : α → PState → Prop}
    (hk : ∀ s', Adv s s' → Ok (k ()) s' Q) :
    Ok (at_ .dot >>= fun b => if b = true then (bump .dot >>= fun _ => expectName >>= k) else k ()) s Q := by
  refine ok_ifAt (by decide) (fun s1 h1 hx => ?_) fun s1 h1 _ => hk s1 h1
  refine ok_bind (ok_bump hx fun s2 h2 => ?_)
  exact ok_bind (ok_expectName fun s3 h3 => hk s3 (h1.trans (h2.adv.trans h3)))

theorem exprs_ok : ∀ n,
    (∀ s, 10 * cnt s + 1 ≤ n → Ok (atomExpr n) s fun r s' => Node s r s') ∧
    (∀ s, 10 * cnt s + 2 ≤ n → Ok (applyExpr n) s fun r s' => (∀ m, r = some m → AdvM s s' m ∧ cnt s' < cnt s) ∧ (r = none → Adv s s')) ∧
    (∀ s p, 10 * cnt s + 3 ≤ n → Ok (opExpr n p) s fun _ s' => Adv s s') ∧
    (∀ s, 10 * cnt s + 1 ≤ n → Next s .pipe → Ok (matchCase n) s fun _ s' => Fwd s s') ∧
    (∀ s, 10 * cnt s + 4 ≤ n → Ok (expr n) s fun _ s' => Adv s s')
  | 0 => ⟨fun _ h => absurd h (by omega), fun _ h => absurd h (by omega), fun _ _ h => absurd h (by omega),
      fun _ h => absurd h (by omega), fun _ h => absurd h (by omega)⟩
  | n + 1 => by
    obtain ⟨ih1, ih2, ih3, ih4, ih5⟩ := exprs_ok n
    refine ⟨fun s hn => ?_, fun s hn => ?_, fun s p hn => ?_, fun s hn hx => ?_, fun s hn => ?_⟩
    · unfold atomExpr
      refine ok_bind (ok_hint fun s1 h1 _ _ _ => ?_)
      refine ok_ifAt (by decide) (fun s2 h2 hx => ?_) fun s2 h2 _ => ?_
      · refine ok_bind (ok_start ?_)
        refine ok_bind (ok_bump (next_started hx) fun s3 h3 => ?_)
        refine ok_bind ((ih5 s3 ?_).mono fun _ s4 h4 => ?_)
        · have := h3.2; have := (h1.trans h2).cnt_le; rw [cnt_started] at *; omega
        refine ok_bind (ok_expect (by decide) fun s5 h5 => ?_)
        exact ok_finish (h1.trans h2) (h3.trans (h4.trans h5))
      have h12 := h1.trans h2
      refine ok_bind (Ok.mono (Q := fun b s' => Adv s2 s' ∧ (b = true → ∃ t, Next s' t)) ?_ fun b s3 h3 => ?_)
      · refine ok_ifAt (by decide) (fun s3 h3 hx => ok_pure ⟨h3, fun _ => ⟨_, hx⟩⟩) fun s3 h3 _ => ?_
        exact ok_at fun b s4 h4 _ _ _ hb => ⟨h3.trans h4, fun h => ⟨_, hb h⟩⟩
      by_cases hbt : b = true
      · rw [if_pos hbt]
        obtain ⟨t, ht⟩ := h3.2 hbt
        exact ok_leafAny (h12.trans h3.1) ht
      rw [if_neg hbt]
      have h13 := h12.trans h3.1
      refine ok_ifAt (by decide) (fun s4 h4 hx => ok_leafAny (h13.trans h4) hx) fun s4 h4 _ => ?_
      refine ok_ifAt (by decide) (fun s5 h5 hx => ok_leafAny ((h13.trans h4).trans h5) hx) fun s5 h5 _ => ?_
      have h15 := (h13.trans h4).trans h5
      refine ok_ifAt (by decide) (fun s6 h6 hx => ?_) fun s6 h6 _ => ?_
      · refine ok_bind (ok_start ?_)
        refine ok_bind (ok_bumpName (next_started hx) fun s7 h7 => ?_)
        refine ok_ifAt (by decide) (fun s8 h8 hx => ?_) fun s8 h8 _ => ok_finish (h15.trans h6) (h7.trans h8)
        refine ok_bind (ok_bump hx fun s9 h9 => ?_)
        refine ok_bind (ok_expectName fun s10 h10 => ?_)
        exact ok_finish (h15.trans h6) ((h7.trans h8).trans (h9.adv.trans h10))
      refine ok_ifAt (by decide) (fun s7 h7 hx => ok_leaf ((h15.trans h6).trans h7) hx) fun s7 h7 he => ?_
      exact ok_pure (.none_ ((h15.trans h6).trans h7) he)
    · unfold applyExpr
      refine ok_bind ((ih1 s (by omega)).mono fun r s1 h1 => ?_)
      cases r with
      | none =>
        refine ok_bind (ok_emitError (h1.2 rfl).2 fun s2 h2 _ _ => ok_pure ⟨(fun _ h => nomatch h), fun _ => (h1.2 rfl).1.trans h2⟩)
      | some m =>
        obtain ⟨hm, hc⟩ := h1.1 m rfl
        refine ok_bind (Ok.mono (Q := fun m' s' => AdvM s s' m' ∧ cnt s' < cnt s) ?_ fun m' s2 h2 =>
          ok_pure ⟨fun m hm => by cases hm; exact h2, fun h => nomatch h⟩)
        refine ok_loop (I := fun m' s' => AdvM s s' m' ∧ cnt s' < cnt s) (fun m' s2 h2 => ?_) n m s1 ⟨hm, hc⟩ (by omega)
        refine ok_bind ((ih1 s2 (by omega)).mono fun r s3 h3 => ?_)
        cases r with
        | none =>
          have := (h3.2 rfl).1.cnt_le
          exact ok_pure ⟨(fun _ h => nomatch h), fun b hb => by cases hb; exact ⟨h2.1.trans (h3.2 rfl).1, by omega⟩⟩
        | some m2 =>
          obtain ⟨hm2, hc2⟩ := h3.1 m2 rfl
          refine ok_bind (ok_precede (h2.1.trans hm2.1) fun s4 ht hcomp _ _ => ?_)
          refine ok_bind (hcomp _ _ _ (.refl s4) fun s5 h5 ht5 => ok_pure ⟨fun a ha => ?_, fun _ h => nomatch h⟩)
          cases ha
          have : cnt s5 = cnt s3 := by rw [cnt_toks ht5, cnt_toks ht]
          exact ⟨⟨h5, by omega⟩, by omega⟩
    · unfold opExpr
      refine ok_bind (ok_hint fun s1 h1 _ _ _ => ?_)
      have hc := h1.cnt_le
      refine ok_bind ((ih2 s1 (by omega)).mono fun r s2 h2 => ?_)
      cases r with
      | none => exact ok_pure (h1.trans (h2.2 rfl))
      | some m =>
        obtain ⟨hm, hc2⟩ := h2.1 m rfl
        refine ok_bind (ok_hint fun s3 h3 _ _ _ => ?_)
        refine ok_loop (I := fun m' s' => AdvM s s' m' ∧ cnt s' < cnt s) (fun m' s4 h4 => ?_) n m s3
          ⟨(h1.transM hm).trans h3, by have := h3.cnt_le; omega⟩ (by have := h3.cnt_le; omega)
        refine ok_bind (ok_peek fun r s5 hp => ?_)
        have hc5 := hp.adv.cnt_le
        cases r with
        | none => exact ok_pure ⟨(fun _ h => nomatch h), fun _ _ => h4.1.1.trans hp.adv⟩
        | some tok =>
          cases hbp : bindingPower tok with
          | none =>
            simp only [Option.bind_some, hbp]
            exact ok_pure ⟨(fun _ h => nomatch h), fun _ _ => h4.1.1.trans hp.adv⟩
          | some pr =>
            obtain ⟨power, right⟩ := pr
            simp only [Option.bind_some, hbp]
            split
            · exact ok_pure ⟨(fun _ h => nomatch h), fun _ _ => h4.1.1.trans hp.adv⟩
            · refine ok_bind (ok_precede (h4.1.trans hp.adv) fun s6 ht hcomp _ _ => ?_)
              have hx : Next s6 tok := by obtain ⟨a, b, h⟩ := hp.tok tok rfl; exact ⟨a, b, by rw [ht, h]⟩
              refine ok_bind (ok_start ?_)
              refine ok_bind (ok_bumpAny (next_started hx) fun s7 h7 => ?_)
              refine ok_bind (ok_complete h7.adv fun s8 h8 ht8 _ _ => ?_)
              have hc8 : cnt s8 < cnt s5 := by
                have := h7.2
                rw [cnt_started, cnt_toks ht] at this
                rw [cnt_toks ht8]; exact this
              refine ok_bind ((ih3 s8 right (by omega)).mono fun _ s9 h9 => ?_)
              refine ok_bind (hcomp _ _ _ (h8.1.trans h9) fun s10 h10 ht10 => ?_)
              refine ok_bind (ok_hint fun s11 h11 _ _ _ => ok_pure ⟨fun a ha => ?_, fun _ h => nomatch h⟩)
              cases ha
              have := h9.cnt_le
              have := h11.cnt_le
              have : cnt s10 = cnt s9 := cnt_toks ht10
              exact ⟨⟨h10.trans h11, by omega⟩, by omega⟩
    · unfold matchCase
      refine ok_bind (ok_start ?_)
      refine ok_bind (ok_bump (next_started hx) fun s1 h1 => ?_)
      have hc := h1.2
      rw [cnt_started] at hc
      refine ok_bind (ok_expectName fun s2 h2 => ?_)
      simp only []
      refine ok_dotName (k := fun _ => _) fun s3 h3 => ?_
      have h13 := h2.trans h3
      have hc3 := h13.cnt_le
      refine ok_bind (ok_start ?_)
      refine ok_bind (ok_whileAt (by decide) (fun s4 h4 hx => ok_bumpName hx fun s5 h5 => h5) (by rw [cnt_started]; omega) fun s4 h4 => ?_)
      refine ok_bind (ok_complete h4 fun s5 h5 ht5 _ _ => ?_)
      have hc5 := h5.1.cnt_le
      refine ok_bind (ok_expect (by decide) fun s6 h6 => ?_)
      have hc6 := h6.cnt_le
      refine ok_bind ((ih5 s6 (by omega)).mono fun _ s7 h7 => ?_)
      have hall := h1.trans (h13.trans (h5.1.trans (h6.trans h7)))
      refine ok_finish' (.refl s) hall.adv fun s8 h8 hc8 => ⟨h8, ?_⟩
      have := hall.2
      rw [cnt_started] at this
      omega
    · unfold expr
      refine ok_bind (ok_hint fun s1 h1 _ _ _ => ?_)
      have hc1 := h1.cnt_le
      refine ok_ifAt (by decide) (fun s2 h2 hx => ?_) fun s2 h2 _ => ?_
      · have hc2 := h2.cnt_le
        refine ok_bind (ok_start ?_)
        refine ok_bind (ok_bump (next_started hx) fun s3 h3 => ?_)
        have hc3 := h3.2
        rw [cnt_started] at hc3
        refine ok_bind (ok_expectName fun s4 h4 => ?_)
        have hc4 := h4.cnt_le
        simp only []
        refine ok_annot (k := fun _ => _) (by omega) fun s5 h5 => ?_
        have hc5 := h5.cnt_le
        refine ok_bind (ok_expect (by decide) fun s6 h6 => ?_)
        have hc6 := h6.cnt_le
        refine ok_bind ((ih5 s6 (by omega)).mono fun _ s7 h7 => ?_)
        have hc7 := h7.cnt_le
        refine ok_bind (ok_expect (by decide) fun s8 h8 => ?_)
        have hc8 := h8.cnt_le
        refine ok_bind ((ih5 s8 (by omega)).mono fun _ s9 h9 => ?_)
        exact ok_finish' (h1.trans h2) (h3.adv.trans (h4.trans (h5.trans (h6.trans (h7.trans (h8.trans h9)))))) fun _ h _ => h
      have hc2 := h2.cnt_le
      replace h2 := h1.trans h2
      refine ok_ifAt (by decide) (fun s3 h3 hx => ?_) fun s3 h3 _ => ?_
      · have hc3 := h3.cnt_le
        refine ok_bind (ok_start ?_)
        refine ok_bind (ok_bump (next_started hx) fun s4 h4 => ?_)
        have hc4 := h4.2
        rw [cnt_started] at hc4
        refine ok_bind ((ih5 s4 (by omega)).mono fun _ s5 h5 => ?_)
        have hc5 := h5.cnt_le
        refine ok_bind (ok_expect (by decide) fun s6 h6 => ?_)
        have hc6 := h6.cnt_le
        refine ok_bind (ok_whileAt (by decide) (fun s7 h7 hx => ih4 s7 (by have := h7.cnt_le; omega) hx) (by omega) fun s7 h7 => ?_)
        refine ok_bind (ok_expect (by decide) fun s8 h8 => ?_)
        exact ok_finish' (h2.trans h3) (h4.adv.trans (h5.trans (h6.trans (h7.trans h8)))) fun _ h _ => h
      have hc3 := h3.cnt_le
      replace h3 := h2.trans h3
      refine ok_ifAt (by decide) (fun s4 h4 hx => ?_) fun s4 h4 _ => ?_
      · have hc4 := h4.cnt_le
        refine ok_bind (ok_start ?_)
        refine ok_bind (ok_bump (next_started hx) fun s5 h5 => ?_)
        have hc5 := h5.2
        rw [cnt_started] at hc5
        refine ok_bind ((ih5 s5 (by omega)).mono fun _ s6 h6 => ?_)
        have hc6 := h6.cnt_le
        refine ok_bind (ok_expect (by decide) fun s7 h7 => ?_)
        have hc7 := h7.cnt_le
        refine ok_bind ((ih5 s7 (by omega)).mono fun _ s8 h8 => ?_)
        have hc8 := h8.cnt_le
        refine ok_bind (ok_expect (by decide) fun s9 h9 => ?_)
        have hc9 := h9.cnt_le
        refine ok_bind ((ih5 s9 (by omega)).mono fun _ s10 h10 => ?_)
        exact ok_finish' (h3.trans h4) (h5.adv.trans (h6.trans (h7.trans (h8.trans (h9.trans h10))))) fun _ h _ => h
      have hc4 := h4.cnt_le
      replace h4 := h3.trans h4
      refine ok_ifAt (by decide) (fun s5 h5 hx => ?_) fun s5 h5 _ => ?_
      · have hc5 := h5.cnt_le
        refine ok_bind (ok_start ?_)
        refine ok_bind (ok_bump (next_started hx) fun s6 h6 => ?_)
        have hc6 := h6.2
        rw [cnt_started] at hc6
        have rest : ∀ s7, Adv s6 s7 → Ok (do expectName; expect .arrow; expr n; let _ ← complete s5.events.length .lambdaExpr) s7 fun _ s' => Adv s s' := by
          intro s7 h7
          refine ok_bind (ok_expectName fun s8 h8 => ?_)
          refine ok_bind (ok_expect (by decide) fun s9 h9 => ?_)
          have hc9 := (h7.trans (h8.trans h9)).cnt_le
          refine ok_bind ((ih5 s9 (by omega)).mono fun _ s10 h10 => ?_)
          exact ok_finish' (h4.trans h5) (h6.adv.trans (h7.trans (h8.trans (h9.trans h10)))) fun _ h _ => h
        simp only []
        refine ok_ifAt (by decide) (fun s7 h7 hx => ?_) fun s7 h7 _ => rest s7 h7
        exact ok_bind (ok_bump hx fun s8 h8 => rest s8 (h7.trans h8.adv))
      have hc5 := h5.cnt_le
      exact (ih3 s5 0 (by omega)).mono fun _ s6 h6 => h4.trans (h5.trans h6)

theorem ok_expr {n s} {Q : Unit → PState → Prop} (hn : 10 * cnt s + 4 ≤ n) (hq : ∀ s', Adv s s' → Q () s') : Ok (expr n) s Q :=
  ((exprs_ok n).2.2.2.2 s hn).mono fun _ => hq

theorem ok_valueItem {n s0 s} (h : Adv (started s0) s) (hn : 10 * cnt s + 4 ≤ n) : Ok (valueItem n s0.events.length) s fun _ s' => Adv s0 s' ∧ cnt s' ≤ cnt s := by
  unfold valueItem
  refine ok_bind (ok_expect (by decide) fun s1 h1 => ?_)
  refine ok_bind (ok_expectName fun s2 h2 => ?_)
  have hc2 := (h1.trans h2).cnt_le
  simp only []
  refine ok_annot (k := fun _ => _) (by omega) fun s3 h3 => ?_
  refine ok_bind (ok_expect (by decide) fun s4 h4 => ?_)
  have hc4 := (h3.trans h4).cnt_le
  refine ok_bind (ok_expr (by omega) fun s5 h5 => ?_)
  refine ok_bind (ok_expect (by decide) fun s6 h6 => ?_)
  have h16 := h1.trans (h2.trans (h3.trans (h4.trans (h5.trans h6))))
  exact ok_finish' (.refl s0) (h.trans h16) fun s7 h7 hc => ⟨h7, by have := h16.cnt_le; omega⟩

theorem ok_typeParams {n s} {Q : Unit → PState → Prop} (hn : cnt s < n) (hq : ∀ s', Adv s s' → Q () s') : Ok (typeParams n) s Q := by
  unfold typeParams
  refine ok_bind (ok_at fun b s1 h1 _ _ _ hb => ?_)
  cases b with
  | false => exact ok_pure (hq _ h1)
  | true =>
    refine ok_bind (ok_start ?_)
    refine ok_bind (ok_whileAt (by decide) (fun s4 h4 hx => ok_bumpName hx fun s5 h5 => h5) (by have := h1.cnt_le; rw [cnt_started]; omega) fun s4 h4 => ?_)
    exact ok_finish' h1 h4 fun s5 h5 _ => hq _ h5

theorem ok_typeCase {n s b} (hn : 10 * cnt s + 1 ≤ n) : Ok (typeCase n b) s fun _ s' => Adv s s' ∧ (b = false → Next s .pipe → cnt s' < cnt s) := by
  unfold typeCase
  refine ok_bind (ok_start ?_)
  have rest : ∀ s1, Adv (started s) s1 → (b = false → Next s .pipe → cnt s1 < cnt s) → Ok (do
      expectName
      loopM (fun _ => do
        if ← at_ .rec_ then
          let m ← start
          bump .rec_
          let _ ← complete m .recField
          pure (.inl ())
        else
          match ← atomType n with
          | some m =>
            let p ← precede m
            let _ ← complete p .typeField
            pure (.inl ())
          | none => pure (.inr ())) n ()
      let _ ← complete s.events.length .typeCase) s1 fun _ s' => Adv s s' ∧ (b = false → Next s .pipe → cnt s' < cnt s) := by
    intro s1 h1 hp
    have hc1 := h1.cnt_le
    rw [cnt_started] at hc1
    refine ok_bind (ok_expectName fun s2 h2 => ?_)
    have hc2 := h2.cnt_le
    refine ok_bind (Ok.mono (Q := fun _ s' => Adv s2 s') ?_ fun _ s3 h3 => ?_)
    · refine ok_loop (I := fun _ s' => Adv s2 s') (fun _ s3 h3 => ?_) n () s2 (.refl _) (by omega)
      have hc3 := h3.cnt_le
      refine ok_ifAt (by decide) (fun s4 h4 hx => ?_) fun s4 h4 _ => ?_
      · refine ok_bind (ok_start ?_)
        refine ok_bind (ok_bump (next_started hx) fun s5 h5 => ?_)
        refine ok_bind (ok_complete h5.adv fun s6 h6 ht _ _ => ok_pure ⟨fun _ _ => ⟨(h3.trans h4).trans h6.1, ?_⟩, fun _ h => nomatch h⟩)
        have := h5.2
        have := h4.cnt_le
        rw [cnt_started] at *
        rw [cnt_toks ht]; omega
      · have hc4 := h4.cnt_le
        refine ok_bind (((types_ok n).1 s4 (by omega)).mono fun r s5 h5 => ?_)
        cases r with
        | none => exact ok_pure ⟨(fun _ h => nomatch h), fun _ _ => (h3.trans h4).trans (h5.2 rfl).1⟩
        | some m =>
          obtain ⟨hm, hc5⟩ := h5.1 m rfl
          refine ok_bind (ok_precede hm fun s6 ht hcomp _ _ => ?_)
          refine ok_bind (hcomp _ _ _ (.refl s6) fun s7 h7 ht7 => ok_pure ⟨fun _ _ => ⟨(h3.trans h4).trans h7.1, ?_⟩, fun _ h => nomatch h⟩)
          rw [cnt_toks ht7, cnt_toks ht]; omega
    · refine ok_finish' (.refl s) (h1.trans (h2.trans h3)) fun s4 h4 hc => ⟨h4, fun hb hx => ?_⟩
      have := hp hb hx
      have := (h2.trans h3).cnt_le
      omega
  cases b with
  | false =>
    refine ok_bind (ok_pure ?_)
    by_cases hx : Next s .pipe
    · refine ok_bind (Ok.mono (Q := fun _ s' => Fwd (started s) s') ?_ fun _ s1 h1 => rest s1 h1.adv fun _ _ => by have := h1.2; rw [cnt_started] at this; exact this)
      unfold expect
      -- the token is there
      unfold at_
      refine ok_bind (ok_bind (ok_modify ?_))
      refine ok_bind ⟨_, _, peek_next (k := .pipe) hx, ok_pure ?_⟩
      refine ok_bump (t := .pipe) hx fun s2 h2 => (adv_same rfl rfl rfl rfl : Adv (started s) _).fwd h2
    · exact ok_bind (ok_expect (by decide) fun s1 h1 => rest s1 h1 fun _ h => absurd h hx)
  | true =>
    refine ok_bind (ok_at fun b s1 h1 _ _ _ hb => ?_)
    cases b with
    | true => exact ok_bind (ok_expect (by decide) fun s2 h2 => rest s2 (h1.trans h2) fun h => nomatch h)
    | false => exact rest s1 h1 fun h => nomatch h

theorem ok_typeItem {n s0 s} (h : Adv (started s0) s) (hx : Next s .type) (hn : 10 * cnt s + 4 ≤ n) : Ok (typeItem n s0.events.length) s fun _ s' => Adv s0 s' ∧ cnt s' < cnt s := by
  unfold typeItem
  refine ok_bind (ok_bump hx fun s1 h1 => ?_)
  have hc1 := h1.2
  refine ok_bind (ok_expectName fun s2 h2 => ?_)
  have hc2 := h2.cnt_le
  refine ok_bind (ok_typeParams (by omega) fun s3 h3 => ?_)
  refine ok_bind (ok_expect (by decide) fun s4 h4 => ?_)
  have h14 := h1.trans (h2.trans (h3.trans h4))
  have rest : ∀ s5, Fwd s s5 → Ok (do
      typeCase n true
      whileM n (at_ .pipe) (typeCase n false)
      expect .semicolon
      let _ ← complete s0.events.length .typeItem) s5 fun _ s' => Adv s0 s' ∧ cnt s' < cnt s := by
    intro s5 h5
    have hc5 := h5.2
    refine ok_bind ((ok_typeCase (by omega)).mono fun _ s6 h6 => ?_)
    have hc6 := h6.1.cnt_le
    refine ok_bind (ok_whileAt (by decide) (fun s7 h7 hx => ?_) (by omega) fun s7 h7 => ?_)
    · have hc7 := h7.cnt_le
      exact (ok_typeCase (by omega)).mono fun _ s8 h8 => ⟨h8.1, h8.2 rfl hx⟩
    refine ok_bind (ok_expect (by decide) fun s8 h8 => ?_)
    have hall := h5.trans (h6.1.trans (h7.trans h8))
    exact ok_finish' (.refl s0) (h.trans hall.adv) fun s9 h9 hc => ⟨h9, by have := hall.2; omega⟩
  simp only []
  refine ok_ifAt (by decide) (fun s5 h5 hx => ?_) fun s5 h5 _ => rest s5 (h14.trans h5)
  exact ok_bind (ok_bump hx fun s6 h6 => rest s6 (h14.trans (h5.trans h6.adv)))

theorem ok_exposedList {n s} {Q : Unit → PState → Prop} (hx : Next s .leftParen) (hn : cnt s < n) (hq : ∀ s', Adv s s' → Q () s') : Ok (exposedList n) s Q := by
  unfold exposedList
  refine ok_bind (ok_start ?_)
  refine ok_bind (ok_bump (next_started hx) fun s1 h1 => ?_)
  have hc1 := h1.2
  rw [cnt_started] at hc1
  refine ok_bind (Ok.mono (Q := fun _ s' => Adv s1 s') ?_ fun _ s2 h2 => ?_)
  · refine ok_loop (I := fun _ s' => Adv s1 s') (fun _ s2 h2 => ?_) n () s1 (.refl _) (by omega)
    refine ok_ifAt (by decide) (fun s3 h3 hx => ok_pure ⟨(fun _ h => nomatch h), fun _ _ => h2.trans h3⟩) fun s3 h3 _ => ?_
    refine ok_bind (ok_expectName fun s4 h4 => ?_)
    refine ok_bind (ok_at fun b s5 h5 _ _ _ hb => ?_)
    cases b with
    | false => exact ok_pure ⟨(fun _ h => nomatch h), fun _ _ => h2.trans (h3.trans (h4.trans h5))⟩
    | true =>
      refine ok_bind (ok_bump (hb rfl) fun s6 h6 => ok_pure ⟨fun _ _ => ⟨h2.trans (h3.trans (h4.trans (h5.trans h6.adv))), ?_⟩, fun _ h => nomatch h⟩)
      exact ((h3.trans (h4.trans h5)).fwd h6).2
  · refine ok_bind (ok_expect (by decide) fun s3 h3 => ?_)
    exact ok_finish' (.refl s) (h1.adv.trans (h2.trans h3)) fun s4 h4 _ => hq _ h4

/-- Recovery eats at least one token, unless one that starts an item comes next. -/
theorem ok_errorRecoverItem {n s} (he : Exp s) (hn : cnt s < n) : Ok (errorRecoverItem n) s fun _ s' => Adv s s' ∧
    (∀ t, Next s t → t ≠ .export_ → t ≠ .type → t ≠ .let_ → cnt s' < cnt s) := by
  unfold errorRecoverItem
  refine ok_bind (ok_emitError he fun s1 h1 hk herr => ?_)
  refine ok_bind (ok_start ?_)
  have hc1 := h1.cnt_le
  -- the loop
  have key : ∀ m s2, cnt s2 < m → Ok (loopM (fun _ => do
      match ← peek with
      | some tok =>
        let s ← get
        let recover := match tok with
          | .export_ | .type => true
          | .let_ => s.sol
          | _ => false
        if recover then pure (.inr ()) else
          bump tok
          pure (.inl ())
      | none => pure (.inr ())) m ()) s2 fun _ s' => Adv s2 s' ∧
        (∀ t, Next s2 t → t ≠ .export_ → t ≠ .type → t ≠ .let_ → cnt s' < cnt s2) := by
    intro m s2 hm
    refine ok_loop (I := fun _ s' => Adv s2 s' ∧ (s' = s2 ∨ cnt s' < cnt s2)) (fun _ s3 h3 => ?_) m () s2 ⟨.refl _, .inl rfl⟩ hm
    refine ok_bind (ok_peek fun r s4 hp => ?_)
    have hc4 := hp.adv.cnt_le
    have stop : (∀ t, Next s2 t → t ≠ .export_ → t ≠ .type → t ≠ .let_ → s3 = s2 → False) →
        Ok (pure (.inr ()) : P (Unit ⊕ Unit)) s4 fun r s' => (∀ a', r = .inl a' → (Adv s2 s' ∧ (s' = s2 ∨ cnt s' < cnt s2)) ∧ cnt s' < cnt s3) ∧
          (∀ b, r = .inr b → Adv s2 s' ∧ (∀ t, Next s2 t → t ≠ .export_ → t ≠ .type → t ≠ .let_ → cnt s' < cnt s2)) := by
      intro hno
      refine ok_pure ⟨(fun _ h => nomatch h), fun _ _ => ⟨h3.1.trans hp.adv, fun t ht h1 h2 h4 => ?_⟩⟩
      rcases h3.2 with he | hl
      · exact (hno t ht h1 h2 h4 he).elim
      · omega
    cases r with
    | none =>
      refine stop fun t ht _ _ _ he => ?_
      subst he
      have := hp.eof rfl
      obtain ⟨cs, D, g1, g2, g3, -, -, g6, -⟩ := hp.adv
      obtain ⟨tx, rs, ht⟩ := ht
      rw [hp.events] at g3
      have hD : D = [] := by simpa using g3
      subst hD
      rw [this, List.append_nil] at g1
      rw [← g1, ht] at g6
      simp [toksOf, kindsOf] at g6
    | some tok =>
      refine ok_bind (ok_get ?_)
      simp only []
      have same : s3 = s2 → ∀ t, Next s2 t → t = tok := by
        intro he t ht
        subst he
        have := peek_next ht
        obtain ⟨tx, rs, ht⟩ := ht
        obtain ⟨cs, D, g1, g2, g3, -, -, g6, -⟩ := hp.adv
        rw [hp.events] at g3
        have hD : D = [] := by simpa using g3
        subst hD
        obtain ⟨tx', rs', ht'⟩ := hp.tok tok rfl
        cases cs with
        | nil =>
          rw [ht, ht'] at g1
          simp at g1
          exact g1.1.1
        | cons c cs =>
          rw [ht] at g1
          simp only [List.cons_append, List.cons.injEq] at g1
          rw [← g1.1] at g6
          simp [toksOf, kindsOf] at g6
      have go : ∀ b : Bool, (b = true → tok = .export_ ∨ tok = .type ∨ tok = .let_) →
          Ok (if b = true then pure (.inr ()) else do bump tok; pure (.inl ()) : P (Unit ⊕ Unit)) s4 fun r s' =>
            (∀ a', r = .inl a' → (Adv s2 s' ∧ (s' = s2 ∨ cnt s' < cnt s2)) ∧ cnt s' < cnt s3) ∧
            (∀ b, r = .inr b → Adv s2 s' ∧ (∀ t, Next s2 t → t ≠ .export_ → t ≠ .type → t ≠ .let_ → cnt s' < cnt s2)) := by
        intro b hb
        split
        · rename_i hrec
          refine stop fun t ht h1 h2 h4 he => ?_
          have := same he t ht
          subst this
          rcases hb hrec with h | h | h <;> contradiction
        · refine ok_bind (ok_bump (hp.tok tok rfl) fun s5 h5 => ok_pure ⟨fun _ _ => ?_, fun _ h => nomatch h⟩)
          have := h5.2
          have := h3.1.cnt_le
          exact ⟨⟨h3.1.trans (hp.adv.trans h5.adv), .inr (by omega)⟩, by omega⟩
      exact go _ (by cases tok <;> simp)
  refine ok_bind ((key n (started s1) (by rw [cnt_started]; omega)).mono fun _ s2 h2 => ?_)
  refine ok_finish' h1 h2.1 fun s3 h3 hc => ⟨h3, fun t ht a b c => ?_⟩
  have hc2 := h2.1.cnt_le
  rw [cnt_started] at hc2
  by_cases hte : t = .error
  · subst hte
    have := herr ht
    omega
  · have := h2.2 t (next_started (hk t hte ht)) a b c
    rw [cnt_started] at this
    omega

theorem next_unique {s : PState} {k k'} (h : Next s k) (h' : Next s k') : k = k' := by
  obtain ⟨_, _, h⟩ := h
  obtain ⟨_, _, h'⟩ := h'
  rw [h] at h'
  simp at h'
  exact h'.1.1

/-- Looking at a token that is there. -/
theorem ok_ifAtNext {α : Type} {t k s} {A B : P α} {Q : α → PState → Prop} (hk : Next s k) (ht : t ≠ .error)
    (hA : ∀ s', Adv s s' → Next s' t → k = t → Ok A s' Q) (hB : ∀ s', Adv s s' → Exp s' → Next s' k → k ≠ t → Ok B s' Q) :
    Ok (at_ t >>= fun b => if b = true then A else B) s Q := by
  have hat : Ok (at_ t) s fun b s' => (b = true ↔ k = t) ∧ Adv s s' ∧ Next s' k ∧ Exp s' := by
    unfold at_
    refine ok_bind (ok_modify ?_)
    rw [if_pos ht]
    refine ok_bind ⟨_, _, peek_next (k := k) hk, ok_pure ⟨by simp, adv_same rfl rfl rfl rfl, hk, .inr (by simp)⟩⟩
  refine ok_bind (hat.mono fun b s' ⟨h1, h2, h3, h4⟩ => ?_)
  by_cases hb : b = true
  · rw [if_pos hb]
    have := h1.mp hb
    exact hA s' h2 (this ▸ h3) this
  · rw [if_neg hb]
    exact hB s' h2 h4 h3 fun h => hb (h1.mpr h)

theorem ok_expectNext {t s} {Q : Unit → PState → Prop} (hx : Next s t) (ht : t ≠ .error) (hq : ∀ s', Fwd s s' → Q () s') : Ok (expect t) s Q := by
  unfold expect
  exact ok_ifAtNext hx ht (fun s1 h1 hn _ => ok_bump hn fun s2 h2 => hq _ (h1.fwd h2)) fun _ _ _ _ h => absurd rfl h

/-- One item takes at least one token. -/
theorem ok_item {n s t} (hx : Next s t) (hn : 10 * cnt s + 4 ≤ n) : Ok (item n) s fun _ s' => Fwd s s' := by
  unfold item
  refine ok_bind (ok_hint fun s1 h1 _ ht1 _ => ?_)
  replace hx : Next s1 t := by obtain ⟨a, b, h⟩ := hx; exact ⟨a, b, by rw [ht1, h]⟩
  have hc1 := h1.cnt_le
  refine ok_ifAtNext hx (by decide) (fun s2 h2 hx _ => ?_) fun s2 h2 _ hx hne1 => ?_
  · replace h2 := h1.trans h2
    have hc2 := h2.cnt_le
    refine ok_bind (ok_start ?_)
    refine ok_bind (ok_bump (next_started hx) fun s3 h3 => ?_)
    have hc3 := h3.2
    rw [cnt_started] at hc3
    refine ok_ifAt (by decide) (fun s4 h4 _ => ?_) fun s4 h4 _ => ?_
    · have hc4 := h4.cnt_le
      exact (ok_valueItem (h3.adv.trans h4) (by omega)).mono fun _ s5 h5 => ⟨h2.trans h5.1, by omega⟩
    refine ok_ifAt (by decide) (fun s5 h5 hx => ?_) fun s5 h5 he => ?_
    · have hc5 := (h4.trans h5).cnt_le
      exact (ok_typeItem (h3.adv.trans (h4.trans h5)) hx (by omega)).mono fun _ s6 h6 => ⟨h2.trans h6.1, by omega⟩
    · have hc5 := (h4.trans h5).cnt_le
      refine ok_bind (ok_complete (h3.adv.trans (h4.trans h5)) fun s6 h6 ht hh hex => ?_)
      have hc6 := cnt_toks ht
      have he6 : Exp s6 := by rcases he with he | he
                              · exact .inl (hh ▸ he)
                              · exact .inr (hex ▸ he)
      refine (ok_errorRecoverItem he6 (by omega)).mono fun _ s7 h7 => ⟨h2.trans (h6.1.trans h7.1), ?_⟩
      have := h7.1.cnt_le
      omega
  replace h2 := h1.trans h2
  have hc2 := h2.cnt_le
  refine ok_ifAtNext hx (by decide) (fun s3 h3 hx _ => ?_) fun s3 h3 _ hx hne2 => ?_
  · have hc3 := h3.cnt_le
    refine ok_bind (ok_start ?_)
    have : Ok (valueItem n s3.events.length) (started s3) fun _ s' => Adv s3 s' ∧ cnt s' < cnt s3 := by
      unfold valueItem
      refine ok_bind (ok_expectNext (next_started hx) (by decide) fun s4 h4 => ?_)
      have hc4 := h4.2
      rw [cnt_started] at hc4
      refine ok_bind (ok_expectName fun s5 h5 => ?_)
      have hc5 := h5.cnt_le
      simp only []
      refine ok_annot (k := fun _ => _) (by omega) fun s6 h6 => ?_
      refine ok_bind (ok_expect (by decide) fun s7 h7 => ?_)
      have hc7 := (h6.trans h7).cnt_le
      refine ok_bind (ok_expr (by omega) fun s8 h8 => ?_)
      refine ok_bind (ok_expect (by decide) fun s9 h9 => ?_)
      have h59 := h5.trans (h6.trans (h7.trans (h8.trans h9)))
      exact ok_finish' (.refl s3) (h4.adv.trans h59) fun s10 h10 hc => ⟨h10, by have := h59.cnt_le; omega⟩
    exact this.mono fun _ s4 h4 => ⟨h2.trans (h3.trans h4.1), by omega⟩
  replace h3 := h2.trans h3
  have hc3 := h3.cnt_le
  refine ok_ifAtNext hx (by decide) (fun s4 h4 hx _ => ?_) fun s4 h4 _ hx hne3 => ?_
  · have hc4 := h4.cnt_le
    refine ok_bind (ok_start ?_)
    exact (ok_typeItem (.refl _) (next_started hx) (by rw [cnt_started]; omega)).mono fun _ s5 h5 =>
      ⟨h3.trans (h4.trans h5.1), by have := h5.2; rw [cnt_started] at this; omega⟩
  replace h4 := h3.trans h4
  have hc4 := h4.cnt_le
  refine ok_ifAtNext hx (by decide) (fun s5 h5 hx _ => ?_) fun s5 h5 he hx hne4 => ?_
  · have hc5 := h5.cnt_le
    refine ok_bind (ok_start ?_)
    refine ok_bind (ok_bump (next_started hx) fun s6 h6 => ?_)
    have hc6 := h6.2
    rw [cnt_started] at hc6
    have rest2 : ∀ s7, Adv s6 s7 → Ok (do
        expect .from_
        expect .string
        expect .semicolon
        let _ ← complete s5.events.length .importItem) s7 fun _ s' => Fwd s s' := by
      intro s7 h7
      refine ok_bind (ok_expect (by decide) fun s8 h8 => ?_)
      refine ok_bind (ok_expect (by decide) fun s9 h9 => ?_)
      refine ok_bind (ok_expect (by decide) fun s10 h10 => ?_)
      have h710 := h7.trans (h8.trans (h9.trans h10))
      have := h710.cnt_le
      exact ok_finish' (h4.trans h5) (h6.adv.trans h710) fun s11 h11 hc => ⟨h11, by omega⟩
    have rest1 : ∀ s7, Adv s6 s7 → Ok (do
        if ← at_ .leftParen then exposedList n
        expect .from_
        expect .string
        expect .semicolon
        let _ ← complete s5.events.length .importItem) s7 fun _ s' => Fwd s s' := by
      intro s7 h7
      have := h7.cnt_le
      refine ok_ifAt (by decide) (fun s8 h8 hx => ?_) fun s8 h8 _ => rest2 s8 (h7.trans h8)
      have := h8.cnt_le
      exact ok_bind (ok_exposedList hx (by omega) fun s9 h9 => rest2 s9 (h7.trans (h8.trans h9)))
    refine ok_ifAt (by decide) (fun s7 h7 hx => ?_) fun s7 h7 _ => rest1 s7 h7
    exact ok_bind (ok_bumpName hx fun s8 h8 => rest1 s8 (h7.trans h8.adv))
  replace h5 := h4.trans h5
  have hc5 := h5.cnt_le
  exact (ok_errorRecoverItem he (by omega)).mono fun _ s6 h6 => ⟨h5.trans h6.1, by have := h6.2 t hx hne1 hne3 hne2; omega⟩

end Tic.Parser
