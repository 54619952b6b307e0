/-
The parser's primitive actions, in terms of the trees they add and the tokens they consume.
-/
import Verif.GrammarErase

namespace Tic.Grammar

open Tic.Parser

theorem Forest.append' {b D ts} (h : Forest b D ts) : ∀ {b' D' ts'}, Forest b' D' ts' → b' = b + D.length → Forest b (D ++ D') (ts ++ ts')
  | _, _, _, .nil, _ => by simpa using h
  | _, _, _, .tok h', e => by simpa [← List.append_assoc] using Forest.tok (h.append' h' e)
  | _, _, _, .tree (D := D1) (D' := D') (sp := sp) (out := o) (t := t) h' ht, e => by
    have r := h.append' h' e
    have ht' : Tree (b + (D ++ D1).length) D' sp o t := by rw [e] at ht; simpa [Nat.add_assoc] using ht
    rw [e]
    simpa [← List.append_assoc, Nat.add_assoc] using Forest.tree r ht'

theorem Forest.append {b D ts} (h : Forest b D ts) {D' ts'} (h' : Forest (b + D.length) D' ts') : Forest b (D ++ D') (ts ++ ts') := h.append' h' rfl

/-- From `s` to `s'`, the events of the trees `ts` are added. -/
def Emits (s s' : PState) (ts : List Syn) : Prop := ∃ D, s'.events = s.events ++ D ∧ Forest s.events.length D ts

theorem Emits.refl (s) : Emits s s [] := ⟨[], by simp, .nil⟩

theorem Emits.of_eq {s s' : PState} (h : s'.events = s.events) : Emits s s' [] := ⟨[], by simp [h], .nil⟩

theorem Emits.trans {a b c ts ts'} (h : Emits a b ts) (h' : Emits b c ts') : Emits a c (ts ++ ts') := by
  obtain ⟨D, e, f⟩ := h
  obtain ⟨D', e', f'⟩ := h'
  refine ⟨D ++ D', by rw [e', e, List.append_assoc], f.append ?_⟩
  rw [e, List.length_append] at f'; exact f'

/-- The same for one node, whose start is at `m`. -/
def EmitsM (s s' : PState) (m : Nat) (t : Syn) : Prop :=
  ∃ D sp i k out, Tree s.events.length D (sp ++ [(i, k)]) out t ∧ s'.events = s.events ++ link s.events.length D (sp ++ [(i, k)]) none ∧ m = s.events.length + i

theorem EmitsM.emits {s s' m t} (h : EmitsM s s' m t) : Emits s s' [t] := by
  obtain ⟨D, sp, i, k, out, h1, h2, -⟩ := h
  exact ⟨_, h2, by simpa using Forest.tree (D := []) .nil (by simpa using h1)⟩

/-- What is left to read, without spaces and comments. -/
def kinds (s : PState) : List TokenKind := kindsOf s.toks

/-- States that differ only in trivia skipped and in what error messages mention. -/
def Same (s s' : PState) : Prop := kinds s' = kinds s ∧ s'.events = s.events

theorem Same.trans {a b c} (h : Same a b) (h' : Same b c) : Same a c := ⟨h'.1.trans h.1, h'.2.trans h.2⟩

theorem EmitsM.same {s s' s'' m t} (h : EmitsM s s' m t) (h' : s''.events = s'.events) : EmitsM s s'' m t := by
  obtain ⟨D, sp, i, k, out, h1, h2, h3⟩ := h
  exact ⟨D, sp, i, k, out, h1, h'.trans h2, h3⟩

theorem EmitsM.pre {s0 s s' m t} (h0 : s.events = s0.events) (h : EmitsM s s' m t) : EmitsM s0 s' m t := by
  unfold EmitsM at *
  rw [← h0]; exact h

/-! ### Running the primitives -/

theorem kindsOf_skip : ∀ (ts : List Tok) (off sol), kindsOf (skipTrivia ts off sol).1 = kindsOf ts
  | [], _, _ => rfl
  | ⟨.token k, t⟩ :: ts, _, _ => by simp [skipTrivia]
  | ⟨.trivia k, t⟩ :: ts, _, _ => by simp [skipTrivia, kindsOf, kindsOf_skip ts]

theorem peek_eq (s : PState) : ∃ s', peek s = some ((kinds s).head?, s') ∧ Same s s' ∧ (∀ k r, kinds s = k :: r → ∃ t tl, s'.toks = ⟨.token k, t⟩ :: tl) := by
  have hk := kindsOf_skip s.toks s.off s.sol
  obtain ⟨cs, -, -, -, h4⟩ := skipTrivia_spec s.toks s.off s.sol
  let s' : PState := { s with toks := (skipTrivia s.toks s.off s.sol).1, off := (skipTrivia s.toks s.off s.sol).2.1, sol := (skipTrivia s.toks s.off s.sol).2.2 }
  refine ⟨s', ?_, ⟨hk, rfl⟩, ?_⟩
  · show (match (skipTrivia s.toks s.off s.sol).1 with | { kind := .token k, .. } :: _ => some (some k, s') | _ => some (none, s')) = _
    rw [kinds, ← hk]
    rcases h4 with h4 | ⟨k, t, tl, h4⟩
    · rw [h4]; rfl
    · rw [h4]; rfl
  · intro k r hkr
    rw [kinds, ← hk] at hkr
    rcases h4 with h4 | ⟨k', t, tl, h4⟩
    · rw [h4] at hkr; simp [kindsOf] at hkr
    · rw [h4] at hkr
      simp only [kindsOf, List.cons.injEq] at hkr
      exact ⟨t, tl, by show (skipTrivia s.toks s.off s.sol).1 = _; rw [h4, hkr.1]⟩

theorem bind_eq {α β : Type} (p : P α) (f : α → P β) (s : PState) : (p >>= f) s = (p s).bind fun q => f q.1 q.2 := rfl

theorem at_eq (t : TokenKind) (s : PState) : ∃ s', at_ t s = some ((kinds s).head? == some t, s') ∧ Same s s' ∧
    (∀ k r, kinds s = k :: r → ∃ tx tl, s'.toks = ⟨.token k, tx⟩ :: tl) := by
  unfold at_
  let s1 : PState := if t ≠ .error then { s with expected := s.expected ++ [t] } else s
  have hs1 : Same s s1 := by
    show Same s (if t ≠ .error then _ else s)
    split
    · exact ⟨rfl, rfl⟩
    · exact ⟨rfl, rfl⟩
  obtain ⟨s2, h1, h2, h3⟩ := peek_eq s1
  refine ⟨s2, ?_, hs1.trans h2, by rw [← hs1.1]; exact h3⟩
  have : (modify fun s : PState => if t ≠ .error then { s with expected := s.expected ++ [t] } else s : P PUnit) s = some (⟨⟩, s1) := rfl
  rw [bind_eq, this]
  simp only [Option.bind_some]
  rw [bind_eq, h1, ← hs1.1]
  rfl

theorem bumpAny_eq {s : PState} {k r} (h : kinds s = k :: r) : ∃ s', bumpAny s = some ((), s') ∧ kinds s' = r ∧ s'.events = s.events ++ [.addToken k] := by
  obtain ⟨s1, h1, h2, h3⟩ := peek_eq s
  obtain ⟨tx, tl, h4⟩ := h3 k r h
  refine ⟨{ sol := false, toks := tl, off := s1.off + tx.length, pos := s1.off + tx.length, events := s1.events ++ [.addToken k], hints := [], expected := [] }, ?_, ?_, ?_⟩
  · unfold bumpAny
    have he : atEof s = some (false, s1) := by
      unfold atEof; rw [bind_eq, h1, h]; rfl
    rw [bind_eq, he]
    simp only [Option.bind_some, Bool.false_eq_true, if_false]
    show (match s1.toks with | { kind := .token k, text } :: ts => _ | _ => none) = _
    rw [h4]
  · have := h2.1
    rw [h, kinds, h4] at this
    simpa [kindsOf, kinds] using this
  · rw [← h2.2]

theorem bump_eq {s : PState} {t r} (h : kinds s = t :: r) : ∃ s', bump t s = some ((), s') ∧ kinds s' = r ∧ s'.events = s.events ++ [.addToken t] := by
  obtain ⟨s1, h1, h2, -⟩ := at_eq t s
  obtain ⟨s2, h3, h4, h5⟩ := bumpAny_eq (s := s1) (h2.1.trans h)
  refine ⟨s2, ?_, h4, by rw [h5, h2.2]⟩
  unfold bump
  rw [bind_eq, h1, h]
  simpa using h3

theorem emits_tok {s s' : PState} {k} (h : s'.events = s.events ++ [.addToken k]) : Emits s s' [.tok k] :=
  ⟨_, h, by simpa using Forest.tok (b := s.events.length) (k := k) .nil⟩

theorem complete_eq {s s' : PState} {ts} (k : SyntaxKind) (h : Emits (started s) s' ts) :
    ∃ s'', complete s.events.length k s' = some (s.events.length, s'') ∧ kinds s'' = kinds s' ∧ EmitsM s s'' s.events.length (.node k ts) := by
  obtain ⟨D, e, f⟩ := h
  simp only [started, List.append_assoc] at e
  have hg : s'.events[s.events.length]? = some .placeholder := by
    rw [e, List.getElem?_append_right (Nat.le_refl _)]; simp
  refine ⟨{ s' with events := s'.events.set s.events.length (.startNode k none) ++ [.finishNode] }, ?_, ?_, ?_⟩
  · simp only [complete, hg]
  · rfl
  · refine ⟨.placeholder :: D ++ [.finishNode], [], 0, k, _, Tree.one (by simpa [started] using f), ?_, rfl⟩
    simp only [e, List.nil_append, link, nextOf]
    simp

/-! ### Links -/

theorem link_snoc (b : Nat) (i : Nat) (k : SyntaxKind) (L : Option Nat) : ∀ (sp : List (Nat × SyntaxKind)) (D : List Event),
    link b D (sp ++ [(i, k)]) L = (link b D sp (some (b + i))).set i (.startNode k L)
  | [], D => rfl
  | (j, k') :: sp, D => by
    simp only [List.cons_append, link]
    rw [link_snoc b i k L sp]
    congr 3
    cases sp with
    | nil => rfl
    | cons p sp => rfl

theorem link_append (b : Nat) (X : List Event) (L : Option Nat) : ∀ (sp : List (Nat × SyntaxKind)) (D : List Event), (∀ p ∈ sp, p.1 < D.length) →
    link b (D ++ X) sp L = link b D sp L ++ X
  | [], D, _ => rfl
  | (j, k) :: sp, D, h => by
    simp only [link]
    rw [List.set_append_left _ _ (h (j, k) (by simp)), link_append b X L sp _ (fun p hp => by simpa using h p (by simp [hp]))]

theorem link_last {b : Nat} {D : List Event} {sp i k} (p : Nat) :
    (link b D (sp ++ [(i, k)]) none).set i (.startNode k (some p)) = link b D (sp ++ [(i, k)]) (some p) := by
  rw [link_snoc, link_snoc, List.set_set]

/-- Putting a parent around the node at `m` and what follows it. -/
theorem precede_eq {s0 s s' : PState} {m t ts1} (h : EmitsM s0 s m t) (h' : Emits s s' ts1) :
    ∃ s'', precede m s' = some (s'.events.length, s'') ∧ kinds s'' = kinds s' ∧ s''.events.length = s'.events.length + 1 ∧
      ∀ s3 k ts2, Emits s'' s3 ts2 → ∃ s4, complete s'.events.length k s3 = some (s'.events.length, s4) ∧ kinds s4 = kinds s3 ∧
        EmitsM s0 s4 s'.events.length (.node k (t :: ts1 ++ ts2)) := by
  obtain ⟨D, sp, i, k0, out, h1, h2, rfl⟩ := h
  obtain ⟨D1, e1, f1⟩ := h'
  have hsp := h1.spine
  have hlt : ∀ p ∈ sp ++ [(i, k0)], p.1 < D.length := fun p hp => lt_of_get (hsp.ph p hp)
  have hi : i < D.length := hlt (i, k0) (by simp)
  have hev : s'.events = s0.events ++ (link s0.events.length D (sp ++ [(i, k0)]) none ++ D1) := by rw [e1, h2, List.append_assoc]
  have hg : (s'.events ++ [.placeholder])[s0.events.length + i]? = some (.startNode k0 none) := by
    rw [hev, List.append_assoc, List.getElem?_append_right (by omega), List.append_assoc, List.getElem?_append_left (by rw [link_length]; omega),
      Nat.add_sub_cancel_left, link_snoc]
    rw [List.getElem?_set_self (by rw [link_length]; exact hi)]
  have hlen : s'.events.length = s0.events.length + (D.length + D1.length) := by rw [hev]; simp [link_length]
  refine ⟨{ s' with events := (s'.events ++ [Event.placeholder]).set (s0.events.length + i) (.startNode k0 (some s'.events.length)) }, ?_, rfl, by simp, ?_⟩
  · unfold precede
    show (match (s'.events ++ [Event.placeholder])[s0.events.length + i]? with
      | some (.startNode k none) => some (s'.events.length, { s' with events := (s'.events ++ [Event.placeholder]).set (s0.events.length + i) (.startNode k (some s'.events.length)) })
      | _ => none) = _
    rw [hg]
  · intro s3 k ts2 h3
    obtain ⟨D2, e2, f2⟩ := h3
    have hev2 : s3.events = s0.events ++ (link s0.events.length D (sp ++ [(i, k0)]) (some s'.events.length) ++ (D1 ++ (.placeholder :: D2))) := by
      rw [e2]
      simp only [hev]
      rw [List.append_assoc, List.set_append_right _ _ (by omega), Nat.add_sub_cancel_left,
        List.append_assoc (link _ _ _ _), List.set_append_left _ _ (by rw [link_length]; exact hi), link_last]
      simp
    have hpos : s'.events.length = (s0.events ++ (link s0.events.length D (sp ++ [(i, k0)]) (some s'.events.length) ++ D1)).length := by
      rw [hlen]; simp [link_length]
    have hg3 : s3.events[s'.events.length]? = some .placeholder := by
      rw [hev2, ← List.append_assoc, ← List.append_assoc, List.append_assoc s0.events, List.getElem?_append_right (Nat.le_of_eq hpos.symm), ← hpos, Nat.sub_self]
      rfl
    refine ⟨{ s3 with events := s3.events.set s'.events.length (.startNode k none) ++ [.finishNode] }, by simp only [complete, hg3], rfl, ?_⟩
    refine ⟨D ++ D1 ++ .placeholder :: D2 ++ [.finishNode], sp ++ [(i, k0)], D.length + D1.length, k, _, Tree.wrap h1 ?_ ?_, ?_, hlen⟩
    · rw [h2, List.length_append, link_length] at f1; exact f1
    · simp only [List.length_set, List.length_append, List.length_cons, List.length_nil, Nat.zero_add] at f2
      rw [hlen, ← Nat.add_assoc] at f2; exact f2
    · simp only
      rw [hev2, ← List.append_assoc, ← List.append_assoc, List.append_assoc s0.events, List.set_append_right _ _ (Nat.le_of_eq hpos.symm), ← hpos, Nat.sub_self,
        link_snoc _ (D.length + D1.length) k none (sp ++ [(i, k0)])]
      have e3 : D ++ D1 ++ Event.placeholder :: D2 ++ [Event.finishNode] = D ++ (D1 ++ Event.placeholder :: D2 ++ [Event.finishNode]) := by simp
      rw [e3, link_append _ _ _ _ _ hlt, List.set_append_right _ _ (by rw [link_length]; omega), link_length, Nat.add_sub_cancel_left]
      simp [hlen]

end Tic.Grammar
