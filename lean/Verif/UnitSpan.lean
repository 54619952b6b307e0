/-
Where the names of a file are: names do not touch, and different name nodes have different tokens.
-/
import Verif.UnitCount
import Verif.PropLeaf
import Verif.LexerProof
import Verif.PropHover

namespace Tic.Units

open Tic.Parser
open Tic.Lower (Text Good Wraps Within tokenSpans)
open Tic.Lexer (rules best candidates best_firstToken lex_first Reads First)
open Tic.Hover (descendants nodeId children)

/-! ### Names do not touch -/

/-- No name follows another immediately. -/
def NoTouch : List Tok → Prop
  | t :: u :: ts => ¬ (t.kind = .token .ident ∧ u.kind = .token .ident) ∧ NoTouch (u :: ts)
  | _ => True

theorem ident_reads {w : Text} (h : Reads (.token .ident) w) : ∃ b bs, w = b :: bs ∧ Lexer.letter b = true ∧ ∀ c ∈ bs, Lexer.wordChar c = true := by
  generalize hk : LexKind.token .ident = k at h
  cases h with
  | literal hm =>
    injection hk with hk
    subst hk
    exact absurd hm (by
      have : ∀ p ∈ Lexer.literals, p.2 ≠ .ident := by decide +kernel
      exact fun h => this _ h rfl)
  | name h1 h2 => exact ⟨_, _, rfl, h1, h2⟩
  | _ => cases hk

theorem letter_word {b : UInt8} (h : Lexer.letter b = true) : Lexer.wordChar b = true := by simp [Lexer.wordChar, h]

theorem lex_head {err : Text → Nat} {s : Text} {t : Tok} {ts : List Tok} (h : lex (rules err) s = t :: ts) (hk : t.kind = .token .ident) :
    ∃ r, s = t.text ++ r ∧ ts = lex (rules err) r ∧ First (.token .ident) t.text r := by
  match s with
  | [] => rw [lex] at h; cases h
  | b :: bs =>
    by_cases h0 : (best (candidates (b :: bs))).1 = 0
    · rw [lex] at h
      injection h with h1 h2
      rw [← h1] at hk
      simp [rules, h0] at hk
    · have hf := best_firstToken (Nat.pos_of_ne_zero h0)
      have hl := lex_first err hf
      rw [List.take_append_drop, h] at hl
      clear h
      generalize best (candidates (b :: bs)) = x at hf hl h0
      injection hl with h1 h2
      subst h1
      simp only at hk
      rw [hk] at hf
      exact ⟨(b :: bs).drop x.1, by simp only [List.take_append_drop], h2, hf⟩

theorem lex_apart (err : Text → Nat) : ∀ (n : Nat) (s : Text), s.length ≤ n → NoTouch (lex (rules err) s)
  | _, [], _ => by rw [lex]; trivial
  | 0, b :: bs, h => by simp at h
  | n + 1, b :: bs, h => by
    generalize hl : lex (rules err) (b :: bs) = l
    match l, hl with
    | [], _ => trivial
    | [_], _ => trivial
    | t :: u :: ts, hl =>
      have hrest : NoTouch (u :: ts) := by
        rw [lex] at hl
        injection hl with h1 h2
        rw [← h2]
        exact lex_apart err n _ (by simp at h ⊢; omega)
      refine ⟨fun ⟨h1, h2⟩ => ?_, hrest⟩
      obtain ⟨r, e1, e2, e3⟩ := lex_head hl h1
      obtain ⟨r', f1, f2, f3⟩ := lex_head e2.symm h2
      obtain ⟨a, as, g1, g2, g3⟩ := ident_reads e3.isA.reads
      obtain ⟨c, cs, k1, k2, k3⟩ := ident_reads f3.isA.reads
      have := e3.longest (.token .ident) (t.text ++ u.text) r' (by rw [f1]; simp) (by
        rw [g1, k1]
        refine .name g2 fun x hx => ?_
        rcases List.mem_append.1 hx with hx | hx
        · exact g3 x hx
        · rcases List.mem_cons.1 hx with rfl | hx
          · exact letter_word k2
          · exact k3 x hx)
      rw [k1] at this
      simp at this
      omega

theorem place_le : ∀ {ts : List Tok} {p : Nat} {k sp}, (k, sp) ∈ place p ts → p ≤ sp.1 ∧ sp.1 ≤ sp.2
  | t :: ts, p, k, sp, h => by
    rw [place, List.mem_cons] at h
    rcases h with h | h
    · injection h with h1 h2
      subst h2
      exact ⟨Nat.le_refl _, by simp⟩
    · have := place_le h
      exact ⟨by omega, this.2⟩

theorem place_pos : ∀ {ts : List Tok} {p : Nat} {k sp}, (∀ t ∈ ts, 0 < t.text.length) → (k, sp) ∈ place p ts → sp.1 < sp.2
  | t :: ts, p, k, sp, hp, h => by
    rw [place, List.mem_cons] at h
    rcases h with h | h
    · injection h with h1 h2
      subst h2
      have := hp t (by simp)
      simp only; omega
    · exact place_pos (fun t ht => hp t (by simp [ht])) h

theorem place_nodup : ∀ {ts : List Tok} {p : Nat}, (∀ t ∈ ts, 0 < t.text.length) → ((place p ts).map Prod.snd).Nodup
  | [], p, _ => by simp [place]
  | t :: ts, p, hp => by
    rw [place, List.map_cons, List.nodup_cons]
    refine ⟨fun h => ?_, place_nodup fun t ht => hp t (by simp [ht])⟩
    obtain ⟨⟨k, sp⟩, h1, h2⟩ := List.mem_map.1 h
    have := place_le h1
    have h3 := hp t (by simp)
    simp only at h2
    subst h2
    simp only at this
    omega

/-- Names of a text have something between them. -/
theorem place_apart : ∀ {ts : List Tok} {p : Nat} {a b}, (∀ t ∈ ts, 0 < t.text.length) → NoTouch ts → (.token .ident, a) ∈ place p ts →
    (.token .ident, b) ∈ place p ts → a ≠ b → a.2 < b.1 ∨ b.2 < a.1
  | t :: ts, p, a, b, hp, hn, ha, hb, hne => by
    have key : ∀ c, t.kind = .token .ident → (.token .ident, c) ∈ place (p + t.text.length) ts → p + t.text.length < c.1 := by
      intro c hk hc
      match ts, hp, hn, hc with
      | u :: ts, hp, hn, hc =>
        rw [place, List.mem_cons] at hc
        rcases hc with hc | hc
        · injection hc with h1 h2
          exact absurd ⟨hk, h1.symm⟩ hn.1
        · have := place_le hc
          have := hp u (by simp)
          omega
    rw [place, List.mem_cons] at ha hb
    rcases ha with ha | ha <;> rcases hb with hb | hb
    · injection ha with h1 h2
      injection hb with h3 h4
      exact absurd (h2.trans h4.symm) hne
    · injection ha with h1 h2
      subst h2
      exact .inl (key b h1.symm hb)
    · injection hb with h1 h2
      subst h2
      exact .inr (key a h1.symm ha)
    · refine place_apart (fun t ht => hp t (by simp [ht])) ?_ ha hb hne
      match ts, hn with
      | [], _ => trivial
      | u :: ts, hn => exact hn.2

/-! ### Different names have different tokens -/

/-- The tokens of the name nodes of a list of nodes. -/
def tokensOf (l : List Elem) : List (Nat × Nat) := (l.filter isName).flatMap fun n => (tokenSpans (children n)).map Prod.snd

theorem tokensOf_append (a b) : tokensOf (a ++ b) = tokensOf a ++ tokensOf b := by simp [tokensOf]

theorem tokenSpans_cons (c cs) : tokenSpans (c :: cs) = tokenSpans [c] ++ tokenSpans cs := Lower.spans_append [c] cs

mutual
theorem toks_le (sp : Nat × Nat) : ∀ e : Elem, (tokensOf (descendants e)).count sp ≤ (e.leaves.map Prod.snd).count sp
  | .token _ _ => by simp [descendants, tokensOf]
  | .trivia _ _ => by simp [descendants, tokensOf]
  | .node id k s f cs => by
    have ih := toks_go sp cs
    rw [Hover.descendants_node, ← List.singleton_append, tokensOf_append, List.count_append, Elem.leaves]
    have : (tokensOf [.node id k s f cs]).count sp ≤ ((tokenSpans cs).map Prod.snd).count sp := by
      unfold tokensOf
      by_cases h : isName (.node id k s f cs) = true
      · simp [h, children]
      · simp [h]
    omega
theorem toks_go (sp : Nat × Nat) : ∀ cs : List Elem, ((tokenSpans cs).map Prod.snd).count sp + (tokensOf (descendants.go cs)).count sp ≤
    ((Elem.leaves.go cs).map Prod.snd).count sp
  | [] => by simp [descendants.go, tokensOf, tokenSpans]
  | c :: cs => by
    have h1 := toks_le sp c
    have h2 := toks_go sp cs
    rw [tokenSpans_cons, Hover.go_cons, tokensOf_append, Elem.leaves.go, List.map_append, List.map_append, List.count_append, List.count_append,
      List.count_append]
    have : ((tokenSpans [c]).map Prod.snd).count sp + (tokensOf (descendants c)).count sp ≤ (c.leaves.map Prod.snd).count sp := by
      cases c with
      | token k s => simp [tokenSpans, descendants, tokensOf, Elem.leaves]
      | trivia k s => simp [tokenSpans, descendants, tokensOf]
      | node id k s f ds =>
        have : tokenSpans [Elem.node id k s f ds] = [] := rfl
        rw [this]; simpa using h1
    omega
end

mutual
theorem within_of : ∀ {e d : Elem}, d ∈ descendants e → Within d e
  | .token _ _, d, h => by simp [descendants] at h
  | .trivia _ _, d, h => by simp [descendants] at h
  | .node id k s f cs, d, h => by
    rw [Hover.descendants_node, List.mem_cons] at h
    rcases h with rfl | h
    · exact .self
    · obtain ⟨c, hc, hw⟩ := within_go h
      exact .child hc hw
theorem within_go : ∀ {cs : List Elem} {d : Elem}, d ∈ descendants.go cs → ∃ c ∈ cs, Within d c
  | [], d, h => by simp [descendants.go] at h
  | c :: cs, d, h => by
    rw [Hover.go_cons, List.mem_append] at h
    rcases h with h | h
    · exact ⟨c, by simp, within_of h⟩
    · obtain ⟨c', h1, h2⟩ := within_go h
      exact ⟨c', by simp [h1], h2⟩
end

/-- The name nodes of a tree. -/
def nameNodes (e : Elem) : List Elem := (descendants e).filter isName

theorem spanOf_name {id sp f cs} : spanOf (.node id .name sp f cs) = (((tokenSpans cs).map Prod.snd).head?).getD sp := by
  simp only [spanOf]
  congr 1
  induction cs with
  | nil => rfl
  | cons c cs ih => cases c <;> simp [tokenSpans, List.findSome?_cons] <;> simpa [tokenSpans] using ih

/-- A name node of a tree has one token, a name, and it is the span of the node. -/
theorem name_token {e d : Elem} (hg : Good e) (hd : d ∈ nameNodes e) : tokenSpans (children d) = [(.ident, spanOf d)] := by
  obtain ⟨h1, h2⟩ := List.mem_filter.1 hd
  have hw := within_of h1
  match d, h2, hw with
  | .node id .name sp f cs, _, hw =>
    obtain ⟨t, s, g1, g2⟩ := hg.all _ _ _ _ _ hw rfl
    have : t = .ident := by simpa [Lower.wraps] using g2
    subst this
    rw [children, spanOf_name, g1]
    rfl

theorem name_leaf {e d : Elem} (hg : Good e) (hd : d ∈ nameNodes e) : (.token .ident, spanOf d) ∈ e.leaves := by
  have h := name_token hg hd
  obtain ⟨h1, h2⟩ := List.mem_filter.1 hd
  have hw := within_of h1
  refine Lower.within_leaves hw _ ?_
  match d, h2, h with
  | .node id .name sp f cs, _, h =>
    rw [Elem.leaves]
    exact Lower.spans_leaves (by rw [children] at h; rw [h]; simp)

theorem name_spans_nodup {e : Elem} (hg : Good e) (hn : (e.leaves.map Prod.snd).Nodup) : ((nameNodes e).map spanOf).Nodup := by
  have : (nameNodes e).map spanOf = tokensOf (descendants e) := by
    have key : ∀ l : List Elem, (∀ d ∈ l, tokenSpans (children d) = [(.ident, spanOf d)]) →
        l.map spanOf = l.flatMap fun n => (tokenSpans (children n)).map Prod.snd := by
      intro l
      induction l with
      | nil => intro _; rfl
      | cons a l ih =>
        intro h
        rw [List.map_cons, List.flatMap_cons, h a (by simp), ih fun d hd => h d (by simp [hd])]
        rfl
    exact key _ fun d hd => name_token hg hd
  rw [this, List.nodup_iff_count]
  exact fun sp => Nat.le_trans (toks_le sp e) (List.nodup_iff_count.1 hn sp)

/-- Different name nodes of a tree have different spans. -/
theorem name_span_inj {e a b : Elem} (hg : Good e) (hn : (e.leaves.map Prod.snd).Nodup) (ha : a ∈ nameNodes e) (hb : b ∈ nameNodes e)
    (h : spanOf a = spanOf b) : a = b := Hover.inj_map (name_spans_nodup hg hn) ha hb h

end Tic.Units
