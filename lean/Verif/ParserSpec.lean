/-
What the parser's primitive actions do.
-/
import Verif.ParserEvents

namespace Tic.Parser

/-- Running `m` from `s` does not panic and ends in a result satisfying `Q`. -/
def Ok {α : Type} (m : P α) (s : PState) (Q : α → PState → Prop) : Prop := ∃ a s', m s = some (a, s') ∧ Q a s'

theorem ok_bind {α β : Type} {m : P α} {f : α → P β} {s Q} (h : Ok m s fun a s' => Ok (f a) s' Q) : Ok (m >>= f) s Q := by
  obtain ⟨a, s1, h1, b, s2, h2, hq⟩ := h
  refine ⟨b, s2, ?_, hq⟩
  show (m s).bind (fun p => f p.1 p.2) = _
  rw [h1]; exact h2

theorem ok_pure {α : Type} {a : α} {s : PState} {Q : α → PState → Prop} (h : Q a s) : Ok (pure a) s Q := ⟨a, s, rfl, h⟩

theorem Ok.mono {α : Type} {m : P α} {s} {Q Q' : α → PState → Prop} (h : Ok m s Q) (hq : ∀ a s', Q a s' → Q' a s') : Ok m s Q' := by
  obtain ⟨a, s1, h1, h2⟩ := h
  exact ⟨a, s1, h1, hq a s1 h2⟩

theorem ok_get {s : PState} {Q : PState → PState → Prop} (h : Q s s) : Ok (get : P PState) s Q := ⟨s, s, rfl, h⟩

theorem ok_modify {s : PState} {f : PState → PState} {Q : PUnit → PState → Prop} (h : Q ⟨⟩ (f s)) : Ok (modify f : P PUnit) s Q :=
  ⟨⟨⟩, f s, rfl, h⟩

/-- How many tokens that are not trivia are left. -/
def cnt (s : PState) : Nat := (kindsOf s.toks).length

/-- There is something to mention in an error message. -/
def Exp (s : PState) : Prop := s.hints ≠ [] ∨ s.expected ≠ []

/-- What running a part of the parser does: it consumes tokens, and adds events for nodes made of
exactly these tokens. -/
def Adv (s s' : PState) : Prop :=
  ∃ cs D, s.toks = cs ++ s'.toks ∧ s'.off = s.off + bytes cs ∧ s'.events = s.events ++ D ∧
    Links s.events.length D ∧ Bal D ∧ toksOf D = kindsOf cs ∧ (s.pos ≤ s.off → s'.pos ≤ s'.off ∧ s.pos ≤ s'.pos) ∧
    (s.pos ≤ s.off → ∀ a b, Event.error a b ∈ D → s.pos ≤ a ∧ a ≤ b ∧ b ≤ s.off + bytes s.toks)

theorem Adv.refl (s : PState) : Adv s s :=
  ⟨[], [], by simp, by simp [bytes], by simp, .nil _, .nil, rfl, fun h => ⟨h, Nat.le_refl _⟩, by simp⟩

theorem Adv.trans {a b c : PState} (h : Adv a b) (h' : Adv b c) : Adv a c := by
  obtain ⟨cs, D, h1, h2, h3, h4, h5, h6, h7, h8⟩ := h
  obtain ⟨cs', D', g1, g2, g3, g4, g5, g6, g7, g8⟩ := h'
  refine ⟨cs ++ cs', D ++ D', by rw [h1, g1, List.append_assoc], by rw [g2, h2, bytes_append]; omega,
    by rw [g3, h3, List.append_assoc], h4.append ?_, h5.append g5, by rw [toksOf_append, kindsOf_append, h6, g6],
    fun h => ⟨(g7 (h7 h).1).1, Nat.le_trans (h7 h).2 (g7 (h7 h).1).2⟩, ?_⟩
  · rw [h3, List.length_append] at g4; exact g4
  · intro hp x y hm
    rcases List.mem_append.mp hm with hm | hm
    · exact h8 hp x y hm
    · have := g8 (h7 hp).1 x y hm
      have := (h7 hp).2
      rw [h1, bytes_append]
      omega

theorem Adv.cnt_le {a b : PState} (h : Adv a b) : cnt b ≤ cnt a := by
  obtain ⟨cs, D, h1, -⟩ := h
  simp [cnt, h1, kindsOf_append]

/-- Something is consumed. -/
def Fwd (s s' : PState) : Prop := Adv s s' ∧ cnt s' < cnt s

theorem Fwd.adv {a b} (h : Fwd a b) : Adv a b := h.1
theorem Fwd.trans {a b c} (h : Fwd a b) (h' : Adv b c) : Fwd a c := ⟨h.1.trans h', Nat.lt_of_le_of_lt h'.cnt_le h.2⟩
theorem Adv.fwd {a b c} (h : Adv a b) (h' : Fwd b c) : Fwd a c := ⟨h.trans h'.1, Nat.lt_of_lt_of_le h'.2 h.cnt_le⟩

/-- The same with a completed node at `m`. -/
def AdvM (s s' : PState) (m : Nat) : Prop :=
  Adv s s' ∧ s.events.length ≤ m ∧ ∃ k, s'.events[m]? = some (Event.startNode k none)

theorem AdvM.trans {a b c m} (h : AdvM a b m) (h' : Adv b c) : AdvM a c m := by
  obtain ⟨h1, h2, k, h3⟩ := h
  refine ⟨h1.trans h', h2, k, ?_⟩
  obtain ⟨cs, D, -, -, g3, -⟩ := h'
  rw [g3, List.getElem?_append_left (lt_of_get h3)]
  exact h3

theorem Adv.events_le {a b : PState} (h : Adv a b) : a.events.length ≤ b.events.length := by
  obtain ⟨cs, D, -, -, h3, -⟩ := h
  simp [h3]

theorem Adv.transM {a b c m} (h : Adv a b) (h' : AdvM b c m) : AdvM a c m :=
  ⟨h.trans h'.1, Nat.le_trans h.events_le h'.2.1, h'.2.2⟩

/-- States that differ only in what error messages mention. -/
theorem adv_same {s s' : PState} (h1 : s'.toks = s.toks) (h2 : s'.off = s.off) (h3 : s'.pos = s.pos) (h4 : s'.events = s.events) : Adv s s' :=
  ⟨[], [], by simp [h1], by simp [h2, bytes], by simp [h4], .nil _, .nil, rfl, by rw [h2, h3]; exact fun h => ⟨h, Nat.le_refl _⟩, by simp⟩

theorem ok_hint {h s} {Q : Unit → PState → Prop} (hq : ∀ s', Adv s s' → s'.hints ≠ [] → s'.toks = s.toks → s'.events = s.events → Q () s') : Ok (hint h) s Q :=
  ⟨(), _, rfl, hq _ (adv_same rfl rfl rfl rfl) (by simp) rfl rfl⟩

theorem skipTrivia_spec : ∀ (ts : List Tok) (off sol), ∃ cs, ts = cs ++ (skipTrivia ts off sol).1 ∧
    (skipTrivia ts off sol).2.1 = off + bytes cs ∧ kindsOf cs = [] ∧
    ((skipTrivia ts off sol).1 = [] ∨ ∃ k text rest, (skipTrivia ts off sol).1 = ⟨.token k, text⟩ :: rest)
  | [], off, sol => ⟨[], rfl, by simp [skipTrivia, bytes], rfl, .inl rfl⟩
  | t :: ts, off, sol => by
    obtain ⟨kind, text⟩ := t
    cases kind with
    | token k => exact ⟨[], by simp [skipTrivia], by simp [skipTrivia, bytes], rfl, .inr ⟨k, text, ts, by simp [skipTrivia]⟩⟩
    | trivia k =>
      obtain ⟨cs, h1, h2, h3, h4⟩ := skipTrivia_spec ts (off + text.length) (k == .newline)
      refine ⟨⟨.trivia k, text⟩ :: cs, ?_, ?_, ?_, ?_⟩
      · simp only [skipTrivia, List.cons_append]; rw [← h1]
      · simp only [skipTrivia]; rw [h2, bytes_cons, Nat.add_assoc]
      · simp [kindsOf, h3]
      · simpa only [skipTrivia] using h4

/-- What `peek` guarantees. -/
structure Peeked (s s' : PState) (r : Option TokenKind) : Prop where
  adv : Adv s s'
  events : s'.events = s.events
  hints : s'.hints = s.hints
  expected : s'.expected = s.expected
  pos : s'.pos = s.pos
  eof : r = none → s'.toks = []
  tok : ∀ k, r = some k → ∃ text rest, s'.toks = ⟨.token k, text⟩ :: rest

theorem ok_peek {s} {Q : Option TokenKind → PState → Prop} (hq : ∀ r s', Peeked s s' r → Q r s') : Ok peek s Q := by
  obtain ⟨cs, h1, h2, h3, h4⟩ := skipTrivia_spec s.toks s.off s.sol
  have hadv : ∀ s' : PState, s'.toks = (skipTrivia s.toks s.off s.sol).1 → s'.off = (skipTrivia s.toks s.off s.sol).2.1 →
      s'.events = s.events → s'.pos = s.pos → Adv s s' := by
    intro s' e1 e2 e3 e4
    refine ⟨cs, [], by rw [e1]; exact h1, by rw [e2]; exact h2, by simp [e3], .nil _, .nil, by simp [h3, toksOf], ?_, by simp⟩
    intro hp; rw [e4, e2, h2]; omega
  rcases h4 with h4 | ⟨k, text, rest, h4⟩
  · refine ⟨none, { s with toks := (skipTrivia s.toks s.off s.sol).1, off := (skipTrivia s.toks s.off s.sol).2.1, sol := (skipTrivia s.toks s.off s.sol).2.2 }, ?_, hq _ _ ?_⟩
    · simp only [peek]; rw [h4]
    · exact ⟨hadv _ rfl rfl rfl rfl, rfl, rfl, rfl, rfl, fun _ => h4, by simp⟩
  · refine ⟨some k, { s with toks := (skipTrivia s.toks s.off s.sol).1, off := (skipTrivia s.toks s.off s.sol).2.1, sol := (skipTrivia s.toks s.off s.sol).2.2 }, ?_, hq _ _ ?_⟩
    · simp only [peek]; rw [h4]
    · exact ⟨hadv _ rfl rfl rfl rfl, rfl, rfl, rfl, rfl, by simp, fun k' hk => by cases hk; exact ⟨text, rest, h4⟩⟩

/-- The next token is `k`. -/
def Next (s : PState) (k : TokenKind) : Prop := ∃ text rest, s.toks = ⟨.token k, text⟩ :: rest

theorem ok_bumpAny {s k} {Q : Unit → PState → Prop} (h : Next s k) (hq : ∀ s', Fwd s s' → Q () s') : Ok bumpAny s Q := by
  obtain ⟨text, rest, h⟩ := h
  refine ⟨(), { sol := false, toks := rest, off := s.off + text.length, pos := s.off + text.length, events := s.events ++ [.addToken k], hints := [], expected := [] }, ?_, hq _ ⟨?_, ?_⟩⟩
  · obtain ⟨sol, toks, off, pos, ev, hi, ex⟩ := s
    simp only at h
    subst h
    rfl
  · refine ⟨[⟨.token k, text⟩], [.addToken k], by simp [h], by simp [bytes], by simp, .single (by simp) (by simp),
      .single rfl rfl, by simp [toksOf, kindsOf], fun _ => ⟨Nat.le_refl _, by simp only; omega⟩, by simp⟩
  · simp [cnt, h, kindsOf]

/-- What `at` guarantees. -/
theorem ok_at' {t s} {Q : Bool → PState → Prop}
    (hq : ∀ b s', Adv s s' → s'.events = s.events → s'.hints = s.hints → (t ≠ .error → s'.expected ≠ []) → (b = true ↔ Next s' t) → Q b s') :
    Ok (at_ t) s Q := by
  unfold at_
  refine ok_bind (ok_modify ?_)
  refine ok_bind (ok_peek fun r s' hp => ok_pure ?_)
  have h0 : ∀ s1 : PState, s1 = (if t ≠ .error then { s with expected := s.expected ++ [t] } else s) → Adv s s1 ∧ s1.events = s.events ∧ s1.hints = s.hints ∧ (t ≠ .error → s1.expected ≠ []) := by
    intro s1 h1
    by_cases ht : t = .error
    · rw [if_neg (by simp [ht])] at h1; subst h1; exact ⟨.refl _, rfl, rfl, fun h => absurd ht h⟩
    · rw [if_pos ht] at h1; subst h1; exact ⟨adv_same rfl rfl rfl rfl, rfl, rfl, fun _ => by simp⟩
  obtain ⟨a1, a2, a3, a4⟩ := h0 _ rfl
  refine hq _ s' (a1.trans hp.adv) (by rw [hp.events, a2]) (by rw [hp.hints, a3]) (fun h => by rw [hp.expected]; exact a4 h) ?_
  refine ⟨fun hb => hp.tok t (by simpa using hb), fun hb => ?_⟩
  obtain ⟨tx, rs, hb⟩ := hb
  cases r with
  | none => have := hp.eof rfl; rw [hb] at this; simp at this
  | some k =>
    obtain ⟨tx', rs', h⟩ := hp.tok k rfl
    rw [hb] at h
    simp at h
    simp [h.1]

theorem ok_at {t s} {Q : Bool → PState → Prop}
    (hq : ∀ b s', Adv s s' → s'.events = s.events → s'.hints = s.hints → (t ≠ .error → s'.expected ≠ []) → (b = true → Next s' t) → Q b s') :
    Ok (at_ t) s Q :=
  ok_at' fun b s' h1 h2 h3 h4 h5 => hq b s' h1 h2 h3 h4 h5.mp

theorem skip_id {s : PState} {k} (h : Next s k) : (skipTrivia s.toks s.off s.sol) = (s.toks, s.off, s.sol) := by
  obtain ⟨text, rest, h⟩ := h
  rw [h]; rfl

theorem peek_next {s : PState} {k} (h : Next s k) : peek s = some (some k, s) := by
  obtain ⟨text, rest, h⟩ := h
  obtain ⟨sol, toks, off, pos, ev, hi, ex⟩ := s
  simp only at h
  subst h
  rfl

theorem ok_bump {t s} {Q : Unit → PState → Prop} (h : Next s t) (hq : ∀ s', Fwd s s' → Q () s') : Ok (bump t) s Q := by
  unfold bump
  have hat : Ok (at_ t) s fun b s' => b = true ∧ Adv s s' ∧ Next s' t := by
    unfold at_
    refine ok_bind (ok_modify ?_)
    refine ok_bind ⟨_, _, peek_next (k := t) ?_, ok_pure ⟨by simp, ?_, ?_⟩⟩
    · split <;> exact h
    · split <;> exact adv_same rfl rfl rfl rfl
    · split <;> exact h
  refine ok_bind (hat.mono fun b s' h => ?_)
  rw [if_pos h.1]
  exact ok_bumpAny h.2.2 fun s'' h' => hq _ (h.2.1.fwd h')

/-- The state after starting a node. -/
def started (s : PState) : PState := { s with events := s.events ++ [.placeholder] }

theorem ok_start {s} {Q : Nat → PState → Prop} (hq : Q s.events.length (started s)) : Ok start s Q := ⟨_, _, rfl, hq⟩

theorem next_started {s t} (h : Next s t) : Next (started s) t := h

@[simp] theorem cnt_started (s) : cnt (started s) = cnt s := rfl

/-- Completing a node around what has been done since it was started. -/
theorem ok_complete {s s' k} {Q : Nat → PState → Prop} (h : Adv (started s) s')
    (hq : ∀ s'', AdvM s s'' s.events.length → s''.toks = s'.toks → s''.hints = s'.hints → s''.expected = s'.expected → Q s.events.length s'') : Ok (complete s.events.length k) s' Q := by
  obtain ⟨cs, D, h1, h2, h3, h4, h5, h6, h7, h8⟩ := h
  have hev : s'.events = s.events ++ (.placeholder :: D) := by rw [h3]; simp [started]
  have hget : s'.events[s.events.length]? = some .placeholder := by
    rw [hev, List.getElem?_append_right (Nat.le_refl _)]; simp
  have hset : s'.events.set s.events.length (.startNode k none) ++ [.finishNode] = s.events ++ (.startNode k none :: (D ++ [.finishNode])) := by
    rw [hev, List.set_append_right (h := Nat.le_refl _)]; simp
  refine ⟨_, { s' with events := s'.events.set s.events.length (.startNode k none) ++ [.finishNode] }, by simp [complete, hget], hq _ ?_ rfl rfl rfl⟩
  have h4' : Links (s.events.length + 1) D := by simpa [started] using h4
  have hl : Links s.events.length (.startNode k none :: (D ++ [.finishNode])) := by
    have : Event.startNode k none :: (D ++ [.finishNode]) = [.startNode k none] ++ (D ++ [.finishNode]) := rfl
    rw [this]
    refine .append (.single (by simp) (by simp)) (.append h4' (.single (by simp) (by simp)))
  refine ⟨⟨cs, .startNode k none :: (D ++ [.finishNode]), h1, h2, hset, hl, h5.wrap, ?_, h7, ?_⟩, Nat.le_refl _, k, ?_⟩
  · simp [toksOf, toksOf_append, h6]
  · intro hp a b hm
    simp at hm
    exact h8 hp a b hm
  · simp only [hset]
    rw [List.getElem?_append_right (Nat.le_refl _)]; simp

/-- Making a completed node the child of a new one. -/
theorem ok_precede {s s' m} {Q : Nat → PState → Prop} (h : AdvM s s' m)
    (hq : ∀ s2, s2.toks = s'.toks → (∀ k' s3 Q', Adv s2 s3 →
        (∀ s'', AdvM s s'' s'.events.length → s''.toks = s3.toks → Q' s'.events.length s'') → Ok (complete s'.events.length k') s3 Q') →
        s2.hints = s'.hints → s2.expected = s'.expected → Q s'.events.length s2) :
    Ok (precede m) s' Q := by
  obtain ⟨⟨cs, D, h1, h2, h3, h4, h5, h6, h7, h8⟩, hm, k, hk⟩ := h
  have hmlt := lt_of_get hk
  have hD : D[m - s.events.length]? = some (Event.startNode k none) := by
    rw [h3, List.getElem?_append_right hm] at hk; exact hk
  have hset : (s'.events ++ [Event.placeholder]).set m (.startNode k (some s'.events.length)) =
      s.events ++ (D.set (m - s.events.length) (.startNode k (some s'.events.length)) ++ [.placeholder]) := by
    rw [List.set_append_left (h := hmlt), h3, List.set_append_right (h := hm), List.append_assoc]
  have hlen : s'.events.length = s.events.length + D.length := by rw [h3]; simp
  unfold precede
  refine ok_bind (ok_start ?_)
  refine ⟨_, { (started s') with events := (s'.events ++ [Event.placeholder]).set m (.startNode k (some s'.events.length)) }, ?_, hq _ rfl ?_ rfl rfl⟩
  · simp only [started]
    rw [List.getElem?_append_left hmlt, hk]
  · rintro k' s3 Q' ⟨cs', D', g1, g2, g3, g4, g5, g6, g7, g8⟩ hq'
    simp only [started] at g1 g2 g3 g4 g7 g8
    have hD1 : (D.set (m - s.events.length) (.startNode k (some s'.events.length))).length = D.length := List.length_set
    generalize hDs : D.set (m - s.events.length) (.startNode k (some s'.events.length)) = D1 at *
    have hev : s3.events = s.events ++ D1 ++ (.placeholder :: D') := by rw [g3, hset]; simp
    have hlen' : s'.events.length = (s.events ++ D1).length := by simp [hlen, hD1]
    have hget : s3.events[s'.events.length]? = some .placeholder := by
      rw [hev, hlen', List.getElem?_append_right (Nat.le_refl _)]; simp
    have hset' : s3.events.set s'.events.length (.startNode k' none) ++ [.finishNode] =
        s.events ++ (D1 ++ (.startNode k' none :: (D' ++ [.finishNode]))) := by
      rw [hev, hlen', List.set_append_right (h := Nat.le_refl _)]; simp
    refine ⟨_, { s3 with events := s3.events.set s'.events.length (.startNode k' none) ++ [.finishNode] }, by simp [complete, hget], hq' _ ?_ rfl⟩
    have hl1 : Links s.events.length (D1 ++ [.startNode k' none]) := by
      rw [← hDs, hlen]; exact h4.precede hD k'
    have hlD' : Links (s.events.length + (D1 ++ [Event.startNode k' none]).length) D' := by
      have : s.events.length + (D1 ++ [Event.startNode k' none]).length = ((s'.events ++ [Event.placeholder]).set m (.startNode k (some s'.events.length))).length := by
        simp [hD1, hlen]; omega
      rw [this]; exact g4
    have hl : Links s.events.length (D1 ++ (.startNode k' none :: (D' ++ [.finishNode]))) := by
      have : D1 ++ (.startNode k' none :: (D' ++ [.finishNode])) = (D1 ++ [.startNode k' none]) ++ (D' ++ [.finishNode]) := by simp
      rw [this]
      exact hl1.append (hlD'.append (.single (by simp) (by simp)))
    have hb1 : Bal D1 := by rw [← hDs]; exact h5.set hD
    have ht1 : toksOf D1 = toksOf D := by rw [← hDs]; exact toksOf_set hD
    refine ⟨⟨cs ++ cs', D1 ++ (.startNode k' none :: (D' ++ [.finishNode])), by rw [h1, g1, List.append_assoc], ?_, hset', hl,
      hb1.append g5.wrap, ?_, fun hp => ⟨(g7 (h7 hp).1).1, Nat.le_trans (h7 hp).2 (g7 (h7 hp).1).2⟩, ?_⟩, by omega, k', ?_⟩
    · show s3.off = _
      rw [g2, h2, bytes_append]; omega
    · simp [toksOf, toksOf_append, kindsOf_append, ht1, h6, g6]
    · intro hp a b hm'
      simp only [List.mem_append, List.mem_cons, List.not_mem_nil, or_false, reduceCtorEq, false_or] at hm'
      rcases hm' with hm' | hm'
      · have : Event.error a b ∈ D := by
          rw [← hDs] at hm'
          rcases List.mem_or_eq_of_mem_set hm' with h | h
          · exact h
          · cases h
        exact h8 hp a b this
      · have := g8 (h7 hp).1 a b hm'
        have := (h7 hp).2
        rw [h1, bytes_append]
        omega
    · simp only [hset']
      rw [hlen', ← List.append_assoc, List.getElem?_append_right (Nat.le_refl _)]; simp

theorem ok_bumpName {s} {Q : Unit → PState → Prop} (h : Next s .ident) (hq : ∀ s', Fwd s s' → Q () s') : Ok bumpName s Q := by
  unfold bumpName
  refine ok_bind (ok_start ?_)
  refine ok_bind (ok_bump (next_started h) fun s1 h1 => ?_)
  refine ok_bind (ok_complete h1.adv fun s2 h2 ht _ _ => ok_pure (hq _ ⟨h2.1, ?_⟩))
  have := h1.2
  simp only [cnt, ht, started] at this ⊢
  exact this

theorem ok_emitError {s} {Q : Unit → PState → Prop} (he : Exp s) (hq : ∀ s', Adv s s' → (∀ k, k ≠ .error → Next s k → Next s' k) → (Next s .error → cnt s' < cnt s) → Q () s') : Ok emitError s Q := by
  unfold emitError
  refine ok_bind (ok_peek fun r s1 hp => ?_)
  -- the end of the action
  have rest : ∀ s2 : PState, s2.toks = s1.toks → s2.off = s1.off → s2.pos = s1.pos → s2.events = s1.events → (r = none → s1.toks = []) →
      Ok (do
        let _ ← peek
        modify fun s =>
          let span := match s.toks with
            | t :: _ => (s.off, s.off + t.text.length)
            | [] => (s.pos, s.pos)
          { s with events := s.events ++ [.error span.1 span.2] }
        if ← at_ .error then bump .error) s2 Q := by
    intro s2 e1 e2 e3 e4 _
    have a12 : Adv s1 s2 := adv_same e1 e2 e3 e4
    refine ok_bind (ok_peek fun r' s3 hp' => ?_)
    refine ok_bind (ok_modify ?_)
    refine ok_bind (ok_at' fun b s4 h4 _ _ _ hb => ?_)
    have a34 : Adv s3 s4 := by
      refine Adv.trans ?_ h4
      refine ⟨[], [.error _ _], by simp, by simp [bytes], rfl, .single (by simp) (by simp), .single rfl rfl, rfl, fun h => ⟨h, Nat.le_refl _⟩, ?_⟩
      intro hpos a b hm
      simp only [List.mem_singleton, Event.error.injEq] at hm
      obtain ⟨rfl, rfl⟩ := hm
      cases hts : s3.toks with
      | nil => simp only [bytes]; simp; exact hpos
      | cons t ts => simp only [bytes_cons]; omega
    have aall : Adv s s4 := ((hp.adv.trans a12).trans hp'.adv).trans a34
    have keep : ∀ k, Next s k → Next s4 k := by
      intro k hk
      have hn1 : s1.toks = s.toks := by
        obtain ⟨text, rest, hk⟩ := hk
        obtain ⟨cs, D, g1, g2, g3, g4, g5, g6, -⟩ := hp.adv
        have : D = [] := by
          have := hp.events; rw [g3] at this; simpa using this
        rw [this] at g6
        cases cs with
        | nil => simpa using g1.symm
        | cons c cs =>
          rw [hk] at g1
          simp only [List.cons_append, List.cons.injEq] at g1
          rw [← g1.1] at g6
          simp [kindsOf, toksOf] at g6
      have step : ∀ {x y : PState}, Adv x y → x.events = y.events ∨ True → Next x k → (∀ D, y.events = x.events ++ D → toksOf D = []) → Next y k := by
        intro x y hxy _ hx hD
        obtain ⟨text, rest, hx⟩ := hx
        obtain ⟨cs, D, g1, g2, g3, g4, g5, g6, -⟩ := hxy
        rw [hD D g3] at g6
        cases cs with
        | nil => exact ⟨text, rest, by rw [← hx, g1]; rfl⟩
        | cons c cs =>
          rw [hx] at g1
          simp only [List.cons_append, List.cons.injEq] at g1
          rw [← g1.1] at g6
          simp [kindsOf] at g6
      have n2 : Next s2 k := by obtain ⟨t, r, hk⟩ := hk; exact ⟨t, r, by rw [e1, hn1, hk]⟩
      have n3 : Next s3 k := step hp'.adv (.inr trivial) n2 (fun D hD => by rw [hp'.events] at hD; simp at hD; simp [hD, toksOf])
      exact step (y := s4) h4 (.inr trivial) (show Next _ k from n3) (fun D hD => by
        rename_i h4e _ _
        rw [h4e] at hD
        simp at hD
        subst hD; rfl)
    by_cases hbt : b = true
    · rw [if_pos hbt]
      refine ok_bump (hb.mp hbt) fun s5 h5 => hq _ (aall.trans h5.adv) ?_ (fun _ => (aall.fwd h5).2)
      intro k hk hn
      have h1 := keep k hn
      obtain ⟨t1, r1, h1⟩ := h1
      obtain ⟨t2, r2, h2⟩ := hb.mp hbt
      rw [h1] at h2
      simp at h2
      exact absurd h2.1.1 hk
    · rw [if_neg hbt]
      exact ok_pure (hq _ aall (fun k _ hn => keep k hn) fun hn => absurd (hb.mpr (keep _ hn)) hbt)
  by_cases hr : (r == some .error) = true
  · rw [if_pos hr]
    exact rest s1 rfl rfl rfl rfl hp.eof
  · rw [if_neg hr]
    refine ok_bind (ok_modify (ok_bind (ok_get ?_)))
    have hne : ¬ ((s1.hints.isEmpty && (s1.expected.filter fun t => s1.hints.all fun h => !h.startsWith t).isEmpty) = true) := by
      intro hh
      simp only [Bool.and_eq_true, List.isEmpty_iff] at hh
      obtain ⟨hh1, hh2⟩ := hh
      rw [hh1] at hh2
      simp at hh2
      rw [hp.hints] at hh1
      rw [hp.expected] at hh2
      rcases he with he | he
      · exact he hh1
      · exact he (List.eq_nil_iff_forall_not_mem.mpr hh2)
    rw [if_neg hne]
    exact rest _ rfl rfl rfl rfl hp.eof

end Tic.Parser
