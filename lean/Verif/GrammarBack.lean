/-
What the parser reads without recording an error is in the grammar: the steps, and types.
-/
import Verif.GrammarMono
import Verif.GrammarFwdItem

namespace Tic.Grammar

open Tic.Parser

macro_rules | `(tactic| mono) => `(tactic| repeat' first
  | with_reducible assumption
  | with_reducible exact mono_pure _
  | with_reducible exact mono_panic
  | with_reducible exact mono_hint _
  | with_reducible exact mono_at _
  | with_reducible exact mono_peek
  | with_reducible exact mono_get
  | with_reducible exact mono_bump _
  | with_reducible exact mono_bumpAny
  | with_reducible exact mono_bumpName
  | with_reducible exact mono_start
  | with_reducible exact mono_complete _ _
  | with_reducible exact mono_precede _
  | with_reducible exact mono_expect _
  | with_reducible exact mono_expectName
  | with_reducible exact mono_emitError
  | with_reducible exact mono_errorRecover _
  | with_reducible exact mono_errorRecoverItem _
  | with_reducible exact mono_type _
  | with_reducible exact mono_atomType _
  | with_reducible exact mono_expr _
  | with_reducible exact (mono_exprs _).2.1
  | with_reducible exact (mono_exprs _).2.2.1 _
  | with_reducible exact (mono_exprs _).2.2.2.1
  | with_reducible exact (mono_exprs _).2.2.2.2
  | with_reducible exact (mono_types _).2.1
  | with_reducible exact mono_typeParams _
  | with_reducible exact mono_typeCase _ _
  | with_reducible exact mono_typeItem _ _
  | with_reducible exact mono_valueItem _ _
  | with_reducible exact mono_exposedList _
  | with_reducible refine mono_while ?_ ?_
  | with_reducible refine mono_bind ?_ (fun _ => ?_)
  | with_reducible refine mono_ite ?_ ?_
  | with_reducible refine mono_loop (fun _ => ?_) _ _
  | split
  | simp only [])

/-- If the action ends without an error recorded, then `Q`. -/
structure Snd {α : Type} (p : P α) (s : PState) (Q : α → PState → Prop) : Prop where
  run : ∀ r s', p s = some (r, s') → Clean s' → Q r s'

theorem b_bind {α β : Type} {p : P α} {f : α → P β} {s Q} (h : Snd p s fun a s1 => Snd (f a) s1 Q) (hf : ∀ a, Mono (f a) := by intro _; mono) : Snd (p >>= f) s Q :=
  ⟨fun r s' e c => by
    rw [bind_eq, Option.bind_eq_some_iff] at e
    obtain ⟨⟨a, s1⟩, h1, h2⟩ := e
    exact (h.run _ _ h1 ((hf a).run _ _ _ h2 c)).run _ _ h2 c⟩

theorem b_pure {α : Type} {a : α} {s} {Q : α → PState → Prop} (h : Q a s) : Snd (pure a : P α) s Q := ⟨fun r s' e _ => by
  simp only [pure, StateT.pure, Option.some.injEq, Prod.mk.injEq] at e
  rw [← e.1, ← e.2]; exact h⟩

theorem Snd.mono {α : Type} {p : P α} {s} {Q Q' : α → PState → Prop} (h : Snd p s Q) (hq : ∀ a s', Q a s' → Q' a s') : Snd p s Q' :=
  ⟨fun r s' e c => hq _ _ (h.run r s' e c)⟩

theorem b_panic {α : Type} {s} {Q : α → PState → Prop} : Snd (panic : P α) s Q := ⟨fun _ _ h => nomatch h⟩

/-- Tokens consumed and trees emitted. -/
structure Reads (s s' : PState) (ts : List Syn) : Prop where
  kinds : kinds s = yields ts ++ kinds s'
  emits : Emits s s' ts

/-- One node, whose start is at `m`. -/
structure ReadsM (s s' : PState) (m : Nat) (t : Syn) : Prop where
  kinds : kinds s = t.yield ++ Grammar.kinds s'
  emits : EmitsM s s' m t

theorem Same.reads {s s'} (h : Same s s') : Reads s s' [] := ⟨by simp [h.1], h.emits⟩
theorem Reads.refl (s) : Reads s s [] := (Same.refl s).reads
theorem Reads.trans {a b c ts ts'} (h : Reads a b ts) (h' : Reads b c ts') : Reads a c (ts ++ ts') :=
  ⟨by rw [h.kinds, h'.kinds, yields_append, List.append_assoc], h.emits.trans h'.emits⟩
theorem ReadsM.reads {s s' m t} (h : ReadsM s s' m t) : Reads s s' [t] := ⟨by rw [h.kinds, yields_cons, yields_nil, List.append_nil], h.emits.emits⟩
theorem ReadsM.pre {s0 s s' m t} (h0 : Same s0 s) (h : ReadsM s s' m t) : ReadsM s0 s' m t := ⟨by rw [← h0.1]; exact h.kinds, h.emits.pre h0.2⟩
theorem ReadsM.same {s s' s'' m t} (h : ReadsM s s' m t) (h' : Same s' s'') : ReadsM s s'' m t := ⟨by rw [h'.1]; exact h.kinds, h.emits.same h'.2⟩
theorem Reads.pre {s0 s s' t} (h0 : Same s0 s) (h : Reads s s' t) : Reads s0 s' t := by simpa using h0.reads.trans h
theorem Reads.same {s s' s'' t} (h : Reads s s' t) (h' : Same s' s'') : Reads s s'' t := by simpa using h.trans h'.reads

/-! ### Steps -/

theorem snd_of_eq {α : Type} {p : P α} {s a s1} {Q : α → PState → Prop} (e : p s = some (a, s1)) (h : Clean s1 → Q a s1) : Snd p s Q := ⟨fun r s' e' c => by
  rw [e] at e'
  simp only [Option.some.injEq, Prod.mk.injEq] at e'
  rw [← e'.2] at c
  rw [← e'.1, ← e'.2]; exact h c⟩

theorem b_hint {h s} {Q : Unit → PState → Prop} (hq : ∀ s', Same s s' → Q () s') : Snd (hint h) s Q := snd_of_eq rfl fun _ => hq _ ⟨rfl, rfl⟩

theorem b_at {t s} {Q : Bool → PState → Prop} (hq : ∀ s', Same s s' → Q ((kinds s').head? == some t) s') : Snd (at_ t) s Q := by
  obtain ⟨s', h1, h2, -⟩ := at_eq t s
  rw [← h2.1] at h1
  exact snd_of_eq h1 fun _ => hq s' h2

theorem b_peek {s} {Q : Option TokenKind → PState → Prop} (hq : ∀ s', Same s s' → Q (kinds s').head? s') : Snd peek s Q := by
  obtain ⟨s', h1, h2, -⟩ := peek_eq s
  rw [← h2.1] at h1
  exact snd_of_eq h1 fun _ => hq s' h2

theorem b_if {α : Type} {t s} {A B : P α} {Q : α → PState → Prop} (hA : ∀ s', Same s s' → (kinds s').head? = some t → Snd A s' Q)
    (hB : ∀ s', Same s s' → (kinds s').head? ≠ some t → Snd B s' Q) (mA : Mono A := by mono) (mB : Mono B := by mono) :
    Snd (at_ t >>= fun b => if b = true then A else B) s Q := by
  refine b_bind (b_at fun s' hs => ?_) fun _ => mono_ite mA mB
  split
  · rename_i h; exact hA s' hs (by simpa using h)
  · rename_i h; exact hB s' hs (by simpa using h)

theorem b_start {s} {Q : Nat → PState → Prop} (h : Q s.events.length (started s)) : Snd start s Q := snd_of_eq rfl fun _ => h

theorem b_bumpAny {s} {Q : Unit → PState → Prop} (hq : ∀ s' k, (kinds s).head? = some k → Reads s s' [.tok k] → Q () s') : Snd bumpAny s Q := by
  cases hk : kinds s with
  | cons k r =>
    obtain ⟨s', h1, h2, h3⟩ := bumpAny_eq hk
    exact snd_of_eq h1 fun _ => hq s' k (by rw [hk]; rfl) ⟨by rw [hk, h2, yields_cons, yield_tok]; rfl, emits_tok h3⟩
  | nil =>
    refine ⟨fun r s' e _ => ?_⟩
    obtain ⟨s1, h1, -, -⟩ := peek_eq s
    have he : atEof s = some (true, s1) := by unfold atEof; rw [bind_eq, h1, hk]; rfl
    unfold bumpAny at e
    rw [bind_eq, he] at e
    exact nomatch e

theorem b_bump {t s} {Q : Unit → PState → Prop} (hq : ∀ s', Reads s s' [.tok t] → Q () s') : Snd (bump t) s Q := by
  unfold bump
  refine b_if (fun s1 h1 hx => b_bumpAny fun s2 k hk h2 => hq s2 ?_) fun _ _ _ => b_panic
  rw [hx] at hk
  cases hk
  exact h2.pre h1

theorem b_complete {s s' ts k} {Q : Nat → PState → Prop} (h : Reads (started s) s' ts)
    (hq : ∀ s'', ReadsM s s'' s.events.length (.node k ts) → Q s.events.length s'') : Snd (complete s.events.length k) s' Q := by
  obtain ⟨s'', h1, h2, h3⟩ := complete_eq k h.emits
  exact snd_of_eq h1 fun _ => hq s'' ⟨by rw [h2, yield_node]; exact h.kinds, h3⟩

theorem b_bumpName {s} {Q : Unit → PState → Prop} (hq : ∀ s', Reads s s' [nm] → Q () s') : Snd bumpName s Q := by
  unfold bumpName
  exact b_bind (b_start (b_bind (b_bump fun s1 h1 => b_bind (b_complete h1 fun s2 h2 => b_pure (hq _ h2.reads)))))

theorem dirty {s : PState} {es : List Event} {a b} {q : Prop} (h : Clean { s with events := es ++ [.error a b] }) : q :=
  absurd (by simp) (h.no es.length a b)

theorem b_emitError {s} {Q : Unit → PState → Prop} : Snd emitError s Q := by
  have tail : ∀ s, Snd (do
      let _ ← peek
      modify fun s =>
        let span := match s.toks with
          | t :: _ => (s.off, s.off + t.text.length)
          | [] => (s.pos, s.pos)
        { s with events := s.events ++ [.error span.1 span.2] }
      if ← at_ .error then bump .error : P Unit) s Q := by
    intro s
    refine ⟨fun r s' e c => ?_⟩
    rw [bind_eq, Option.bind_eq_some_iff] at e
    obtain ⟨⟨a, s1⟩, -, e⟩ := e
    rw [bind_eq, Option.bind_eq_some_iff] at e
    obtain ⟨⟨b, s2⟩, e1, e⟩ := e
    have hm : Mono (at_ .error >>= fun b => if b = true then bump .error else pure () : P Unit) := by mono
    have c2 := hm.run _ _ _ e c
    have e1' : (some (PUnit.unit, ({ s1 with events := s1.events ++ [.error (match s1.toks with
          | t :: _ => (s1.off, s1.off + t.text.length)
          | [] => (s1.pos, s1.pos)).1 (match s1.toks with
          | t :: _ => (s1.off, s1.off + t.text.length)
          | [] => (s1.pos, s1.pos)).2] } : PState)) : Option (PUnit × PState)) = some (b, s2) := e1
    simp only [Option.some.injEq, Prod.mk.injEq] at e1'
    rw [← e1'.2] at c2
    exact dirty c2
  have mt : Mono (do
      let _ ← peek
      modify fun s =>
        let span := match s.toks with
          | t :: _ => (s.off, s.off + t.text.length)
          | [] => (s.pos, s.pos)
        { s with events := s.events ++ [.error span.1 span.2] }
      if ← at_ .error then bump .error : P Unit) := by
    refine mono_bind mono_peek fun _ => mono_bind (mono_modify fun s => .inr ⟨_, rfl⟩) fun _ => ?_
    mono
  have anyQ : ∀ (α : Type) (p : P α) (s : PState), Snd p s fun _ _ => True := fun _ _ _ => ⟨fun _ _ _ _ => trivial⟩
  have m1 : ∀ b : Bool, Mono (if b = true then panic >>= fun _ => (do
      let _ ← peek
      modify fun s =>
        let span := match s.toks with
          | t :: _ => (s.off, s.off + t.text.length)
          | [] => (s.pos, s.pos)
        { s with events := s.events ++ [.error span.1 span.2] }
      if ← at_ .error then bump .error : P Unit) else (do
      let _ ← peek
      modify fun s =>
        let span := match s.toks with
          | t :: _ => (s.off, s.off + t.text.length)
          | [] => (s.pos, s.pos)
        { s with events := s.events ++ [.error span.1 span.2] }
      if ← at_ .error then bump .error : P Unit)) := fun b => mono_ite (mono_bind (mono_panic (α := Unit)) fun _ => mt) mt
  unfold emitError
  refine b_bind ((anyQ _ _ _).mono fun r s1 _ => ?_) fun _ => ?_
  · split
    · exact tail _
    · refine b_bind ((anyQ _ _ _).mono fun _ s2 _ => b_bind ((anyQ _ _ _).mono fun st s3 _ => ?_) fun _ => m1 _) fun _ => mono_bind mono_get fun _ => m1 _
      split
      · exact b_bind b_panic fun _ => mt
      · exact tail _
  · exact mono_ite mt (mono_bind (mono_modify fun s => .inl rfl) fun _ => mono_bind mono_get fun _ => m1 _)

theorem b_expect {t s} {Q : Unit → PState → Prop} (hq : ∀ s', Reads s s' [.tok t] → Q () s') : Snd (expect t) s Q := by
  unfold expect
  exact b_if (fun s1 h1 _ => b_bump fun s2 h2 => hq s2 (h2.pre h1)) fun _ _ _ => b_emitError

theorem b_expectName {s} {Q : Unit → PState → Prop} (hq : ∀ s', Reads s s' [nm] → Q () s') : Snd expectName s Q := by
  unfold expectName
  exact b_if (fun s1 h1 _ => b_bumpName fun s2 h2 => hq s2 (h2.pre h1)) fun _ _ _ => b_emitError

theorem b_doneM {s0 s1 s2 ts k} {Q : Option Nat → PState → Prop} (h0 : Same s0 s1) (h : Reads (started s1) s2 ts)
    (hq : ∀ s' m, ReadsM s0 s' m (.node k ts) → Q (some m) s') :
    Snd (complete s1.events.length k >>= fun m => (pure (some m) : P (Option Nat))) s2 Q :=
  b_bind (b_complete h fun _ h3 => b_pure (hq _ _ (h3.pre h0)))

theorem b_done {s0 s1 s2 ts k} {Q : Unit → PState → Prop} (h0 : Same s0 s1) (h : Reads (started s1) s2 ts)
    (hq : ∀ s', Reads s0 s' [.node k ts] → Q () s') :
    Snd (complete s1.events.length k >>= fun _ => (pure () : P Unit)) s2 Q :=
  b_bind (b_complete h fun _ h3 => b_pure (hq _ (h3.pre h0).reads))

/-- Putting a parent around a node. -/
theorem b_precede {s0 s s' m t ts1} {Q : Nat → PState → Prop} (h : ReadsM s0 s m t) (h' : Reads s s' ts1)
    (hq : ∀ s'', kinds s'' = kinds s' → (∀ {s3 k ts2} {Q' : Nat → PState → Prop}, Reads s'' s3 ts2 →
      (∀ s4, ReadsM s0 s4 s'.events.length (.node k (t :: ts1 ++ ts2)) → Q' s'.events.length s4) → Snd (complete s'.events.length k) s3 Q') → Q s'.events.length s'') :
    Snd (precede m) s' Q := by
  obtain ⟨s'', h1, h2, -, h4⟩ := precede_eq h.emits h'.emits
  refine snd_of_eq h1 fun _ => hq s'' h2 fun {s3 k ts2 Q'} h5 h6 => ?_
  obtain ⟨s4, h7, h8, h9⟩ := h4 s3 k ts2 h5.emits
  refine snd_of_eq h7 fun _ => h6 s4 ⟨?_, h9⟩
  rw [h.kinds, h'.kinds, ← h2, h5.kinds, h8, yield_node, yields_append, yields_cons]
  simp

theorem b_loop {σ β : Type} {body : σ → P (σ ⊕ β)} {I : σ → PState → Prop} {Q : β → PState → Prop}
    (h : ∀ a s, I a s → Snd (body a) s fun r s' => (∀ a', r = .inl a' → I a' s') ∧ (∀ b, r = .inr b → Q b s')) (hm : ∀ a, Mono (body a) := by intro _; mono) :
    ∀ n a s, I a s → Snd (loopM body n a) s Q
  | 0, _, _, _ => b_panic
  | n + 1, a, s, hI => by
    unfold loopM
    refine b_bind ((h a s hI).mono fun r s' hr => ?_) fun r => ?_
    · cases r with
      | inl a' => exact b_loop h hm n a' s' (hr.1 a' rfl)
      | inr b => exact b_pure (hr.2 b rfl)
    · cases r with
      | inl a' => exact mono_loop hm n a'
      | inr b => exact mono_pure b

/-- A loop reading a list of trees. -/
theorem b_while {cond : P Bool} {body : P Unit} {G : Syn → Prop} {E : PState → Prop} {n s}
    (h : ∀ s, Snd cond s fun b s1 => (b = false → Same s s1 ∧ E s1) ∧ (b = true → Snd body s1 fun _ s2 => ∃ a, G a ∧ Reads s s2 [a]))
    (mc : Mono cond := by mono) (mb : Mono body := by mono) :
    Snd (whileM n cond body) s fun _ s' => E s' ∧ ∃ ts, (∀ a ∈ ts, G a) ∧ Reads s s' ts := by
  unfold whileM
  refine b_loop (I := fun _ s1 => ∃ ts, (∀ a ∈ ts, G a) ∧ Reads s s1 ts) (fun _ s1 ⟨ts, h1, h2⟩ => ?_) (fun _ => by mono) n () s ⟨[], by simp, .refl s⟩
  refine b_bind ((h s1).mono fun b s2 h3 => ?_)
  cases b with
  | false =>
    obtain ⟨h4, h5⟩ := h3.1 rfl
    exact b_pure ⟨fun _ h => (nomatch h), fun _ _ => ⟨h5, ts, h1, h2.same h4⟩⟩
  | true =>
    refine b_bind ((h3.2 rfl).mono fun _ s3 h4 => b_pure ⟨fun _ _ => ?_, fun _ h => nomatch h⟩)
    obtain ⟨a, h5, h6⟩ := h4
    refine ⟨ts ++ [a], ?_, h2.trans h6⟩
    intro b hb
    rcases List.mem_append.mp hb with hb | hb
    · exact h1 b hb
    · rw [List.mem_singleton] at hb; rw [hb]; exact h5

theorem b_names {n s} : Snd (whileM n (at_ .ident) bumpName) s fun _ s' => (kinds s').head? ≠ some .ident ∧ ∃ j, Reads s s' (List.replicate j nm) := by
  refine (b_while (G := fun a => a = nm) (E := fun s' => (kinds s').head? ≠ some .ident) fun s1 => b_at fun s2 h2 => ⟨fun hb => ⟨h2, by simpa using hb⟩, fun _ =>
    b_bumpName fun s3 h3 => ⟨nm, rfl, h3.pre h2⟩⟩).mono fun _ s1 ⟨h1, ts, h2, h3⟩ => ⟨h1, ts.length, ?_⟩
  rw [← List.eq_replicate_iff.mpr ⟨rfl, h2⟩]; exact h3

/-! ### Types -/

/-- The rest of a path. -/
theorem b_dot {α : Type} {s0 s} {A : P α} {Q : α → PState → Prop} (h : Reads s0 s [nm])
    (hq : ∀ s' p, Path p → Reads s0 s' p → Snd A s' Q) (mA : Mono A := by mono) :
    Snd (at_ .dot >>= fun b => if b = true then (bump .dot >>= fun _ => expectName >>= fun _ => A) else A) s Q := by
  refine b_if (fun s1 h1 _ => ?_) (fun s1 h1 _ => hq s1 _ .plain (h.same h1)) (by mono) mA
  refine b_bind (b_bump fun s2 h2 => b_bind (b_expectName fun s3 h3 => ?_) fun _ => mA) fun _ => by mono
  exact hq s3 _ .inModule ((h.same h1).trans (h2.trans h3))

theorem back_types : ∀ n,
    (∀ s, Snd (atomType n) s fun r s' => (∀ m, r = some m → ∃ t, AtomTy t ∧ ReadsM s s' m t) ∧ (r = none → Same s s')) ∧
    (∀ s, Snd (nonFnType n) s fun r s' => (∀ m, r = some m → ∃ t, AppTy t ∧ ReadsM s s' m t)) ∧
    (∀ s, Snd (type_ n) s fun _ s' => ∃ t, Ty t ∧ Reads s s' [t])
  | 0 => ⟨fun _ => b_panic, fun _ => b_panic, fun _ => b_panic⟩
  | n + 1 => by
    obtain ⟨ih1, ih2, ih3⟩ := back_types n
    refine ⟨fun s => ?_, fun s => ?_, fun s => ?_⟩
    · have yes : ∀ {t}, AtomTy t → ∀ s' m, ReadsM s s' m t → (∀ m', some m = some m' → ∃ t, AtomTy t ∧ ReadsM s s' m' t) ∧ (some m = none → Same s s') := by
        intro t ht s' m h
        exact ⟨fun m' e => ⟨t, ht, by rw [← Option.some.inj e]; exact h⟩, fun e => nomatch e⟩
      unfold atomType
      refine b_bind (b_hint fun s1 h1 => ?_)
      refine b_if (fun s2 h2 _ => ?_) fun s2 h2 _ => ?_
      · exact b_bind (b_start (b_bind (b_bump fun s3 h3 => b_doneM (h1.trans h2) h3 (yes .int))))
      replace h2 := h1.trans h2
      refine b_if (fun s3 h3 _ => ?_) fun s3 h3 _ => ?_
      · exact b_bind (b_start (b_bind (b_bump fun s4 h4 => b_doneM (h2.trans h3) h4 (yes .bool))))
      replace h3 := h2.trans h3
      refine b_if (fun s4 h4 _ => ?_) fun s4 h4 _ => ?_
      · exact b_bind (b_start (b_bind (b_bump fun s5 h5 => b_doneM (h3.trans h4) h5 (yes .string))))
      replace h4 := h3.trans h4
      refine b_if (fun s5 h5 _ => ?_) fun s5 h5 _ => ?_
      · refine b_bind (b_start (b_bind (b_bumpName fun s6 h6 => ?_)))
        exact b_dot h6 fun s7 p hp h7 => b_doneM (h4.trans h5) h7 (yes (.named hp))
      replace h5 := h4.trans h5
      refine b_if (fun s6 h6 _ => ?_) fun s6 h6 _ => ?_
      · refine b_bind (b_start (b_bind (b_bump fun s7 h7 => b_bind ((ih3 s7).mono fun _ s8 h8 => ?_))))
        obtain ⟨t, ht, h8⟩ := h8
        refine b_bind (b_expect fun s9 h9 => ?_)
        exact b_doneM (h5.trans h6) ((h7.trans h8).trans h9) (yes (.paren ht))
      replace h6 := h5.trans h6
      refine b_if (fun s7 h7 _ => ?_) fun s7 h7 _ => ?_
      · exact b_bind b_emitError
      · exact b_pure ⟨fun _ h => (nomatch h), fun _ => h6.trans h7⟩
    · unfold nonFnType
      refine b_if (fun s1 h1 _ => ?_) fun s1 h1 _ => ?_
      · refine b_bind (b_start (b_bind (b_bumpName fun s2 h2 => ?_)))
        refine b_dot h2 fun s3 p hp h3 => ?_
        refine b_bind ((b_while (G := AtomTy) (E := fun _ => True) fun s4 => b_bind ((ih1 s4).mono fun r s5 h5 => b_pure ?_)).mono fun _ s4 h4 => ?_)
        · cases r with
          | none => exact ⟨fun _ => ⟨h5.2 rfl, trivial⟩, fun h => nomatch h⟩
          | some m =>
            obtain ⟨t, ht, h6⟩ := h5.1 m rfl
            exact ⟨fun h => (nomatch h), fun _ => b_pure ⟨t, ht, h6.reads⟩⟩
        · obtain ⟨-, args, h5, h6⟩ := h4
          refine b_doneM h1 (h3.trans h6) fun s' m h7 m' e => ⟨_, .app hp h5, ?_⟩
          rw [← Option.some.inj e]; exact h7
      · refine (ih1 s1).mono fun r s2 h2 m e => ?_
        obtain ⟨t, ht, h3⟩ := h2.1 m e
        exact ⟨t, .atom ht, h3.pre h1⟩
    · unfold type_
      refine b_bind (b_hint fun s1 h1 => ?_)
      refine b_bind ((ih2 s1).mono fun r s2 h2 => ?_)
      cases r with
      | none =>
        unfold errorRecover
        exact b_bind b_emitError
      | some m =>
        obtain ⟨t, ht, h2⟩ := h2 m rfl
        replace h2 := h2.pre h1
        refine b_if (fun s3 h3 _ => ?_) fun s3 h3 _ => b_pure ⟨t, .app ht, (h2.same h3).reads⟩
        refine b_bind (b_precede (h2.same h3) (.refl _) fun s4 h4 hc => ?_)
        refine b_bind (b_bump fun s5 h5 => b_bind ((ih3 s5).mono fun _ s6 h6 => ?_))
        obtain ⟨t', ht', h6⟩ := h6
        exact b_bind (hc (h5.trans h6) fun s7 h7 => b_pure ⟨_, .fn ht ht', by simpa using h7.reads⟩)

end Tic.Grammar
