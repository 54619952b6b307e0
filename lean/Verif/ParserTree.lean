/-
The tree built from the events is a lossless cover of the tokens.
-/
import Verif.ParserReorder

namespace Tic.Parser

/-- The leaves of a tree, with their spans, from left to right. -/
def Elem.leaves : Elem → List (LexKind × (Nat × Nat))
  | .node _ _ _ _ cs => go cs
  | .token k s => [(.token k, s)]
  | .trivia k s => [(.trivia k, s)]
where
  go : List Elem → List (LexKind × (Nat × Nat))
    | [] => []
    | c :: cs => c.leaves ++ go cs

/-- The ids of the nodes of a tree, parents first. -/
def Elem.ids : Elem → List Nat
  | .node i _ _ _ cs => i :: go cs
  | .token _ _ => []
  | .trivia _ _ => []
where
  go : List Elem → List Nat
    | [] => []
    | c :: cs => c.ids ++ go cs

/-- The whole extent of an element, trivia included. -/
def Elem.full : Elem → Nat × Nat
  | .node _ _ _ f _ => f
  | .token _ s => s
  | .trivia _ s => s

/-- The extent without the trivia around it. -/
def Elem.span : Elem → Nat × Nat
  | .node _ _ s _ _ => s
  | .token _ s => s
  | .trivia _ s => s

/-- The elements follow each other without gaps from `a` to `b`. -/
def Tiles (a b : Nat) : List Elem → Prop
  | [] => a = b
  | c :: cs => c.full.1 = a ∧ Tiles c.full.2 b cs

/-- The spans of a tree make sense: the children of a node cover it, and spans are inside. -/
def Elem.Wf : Elem → Prop
  | .node _ _ s f cs => Tiles f.1 f.2 cs ∧ f.1 ≤ s.1 ∧ s.1 ≤ s.2 ∧ s.2 ≤ f.2 ∧ go cs
  | .token _ s => s.1 ≤ s.2
  | .trivia _ s => s.1 ≤ s.2
where
  go : List Elem → Prop
    | [] => True
    | c :: cs => c.Wf ∧ go cs

/-- Tokens laid out one after the other. -/
def place (pos : Nat) : List Tok → List (LexKind × (Nat × Nat))
  | [] => []
  | t :: ts => (t.kind, (pos, pos + t.text.length)) :: place (pos + t.text.length) ts

theorem place_append (pos) (a b : List Tok) : place pos (a ++ b) = place pos a ++ place (pos + bytes a) b := by
  induction a generalizing pos with
  | nil => simp [place, bytes]
  | cons t a ih => simp only [List.cons_append, place, ih, bytes_cons, Nat.add_assoc]

theorem Elem.leaves_go_append (a b) : Elem.leaves.go (a ++ b) = Elem.leaves.go a ++ Elem.leaves.go b := by
  induction a with
  | nil => rfl
  | cons c a ih => simp [Elem.leaves.go, ih]

theorem Elem.ids_go_append (a b) : Elem.ids.go (a ++ b) = Elem.ids.go a ++ Elem.ids.go b := by
  induction a with
  | nil => rfl
  | cons c a ih => simp [Elem.ids.go, ih]

theorem Elem.Wf_go {cs} : Elem.Wf.go cs ↔ ∀ c ∈ cs, c.Wf := by
  induction cs with
  | nil => simp [Elem.Wf.go]
  | cons c cs ih => simp [Elem.Wf.go, ih]

theorem Tiles.append {a b c : Nat} {l l' : List Elem} (h : Tiles a b l) (h' : Tiles b c l') : Tiles a c (l ++ l') := by
  induction l generalizing a with
  | nil => simp only [Tiles] at h; subst h; exact h'
  | cons e l ih => exact ⟨h.1, ih h.2⟩

/-- The leaves and ids of the open nodes, outermost first. -/
def leavesB : List Open → List (LexKind × (Nat × Nat))
  | [] => []
  | o :: os => leavesB os ++ Elem.leaves.go o.children

def idsB : List Open → List Nat
  | [] => []
  | o :: os => idsB os ++ o.id :: Elem.ids.go o.children

/-- The open nodes cover everything from `start` to `pos`. -/
def BI (start : Nat) : List Open → Nat → Prop
  | [], _ => False
  | o :: os, pos => Tiles o.at_ pos o.children ∧ (∀ c ∈ o.children, c.Wf) ∧ o.at_ ≤ pos ∧
    match os with
    | [] => o.at_ = start
    | _ => BI start os o.at_

theorem full_le {e : Elem} (h : e.Wf) : e.full.1 ≤ e.full.2 ∧ e.full.1 ≤ e.span.1 ∧ e.span.1 ≤ e.span.2 ∧ e.span.2 ≤ e.full.2 := by
  cases e with
  | node i k s f cs => simp only [Elem.Wf] at h; simp only [Elem.full, Elem.span]; omega
  | token k s => simp only [Elem.Wf] at h; simp only [Elem.full, Elem.span]; omega
  | trivia k s => simp only [Elem.Wf] at h; simp only [Elem.full, Elem.span]; omega

theorem Tiles.le {a b : Nat} {l : List Elem} (h : Tiles a b l) (hw : ∀ c ∈ l, c.Wf) : a ≤ b := by
  induction l generalizing a with
  | nil => exact Nat.le_of_eq h
  | cons e l ih =>
    have h1 := ih h.2 fun c hc => hw c (by simp [hc])
    have h2 := full_le (hw e (by simp))
    have := h.1
    omega

theorem Tiles.mem {a b : Nat} {l : List Elem} (h : Tiles a b l) (hw : ∀ c ∈ l, c.Wf) : ∀ c ∈ l, a ≤ c.full.1 ∧ c.full.2 ≤ b := by
  induction l generalizing a with
  | nil => simp
  | cons e l ih =>
    intro c hc
    have h1 := ih h.2 fun c hc => hw c (by simp [hc])
    have h2 := full_le (hw e (by simp))
    have h3 := h.2.le fun c hc => hw c (by simp [hc])
    have := h.1
    rcases List.mem_cons.mp hc with rfl | hc
    · omega
    · have := h1 c hc; omega

theorem Tiles.last {a b : Nat} {l : List Elem} (h : Tiles a b l) : (l.reverse.head?.map Elem.fullEnd).getD a = b := by
  induction l generalizing a with
  | nil => simpa [Tiles] using h
  | cons e l ih =>
    cases l with
    | nil =>
      have := h.2
      simp only [Tiles] at this
      simp only [List.reverse_cons, List.reverse_nil, List.nil_append, List.head?_cons, Option.map_some, Option.getD_some]
      rw [← this]; cases e <;> rfl
    | cons e' l =>
      have := ih h.2
      simp only [List.reverse_cons] at this ⊢
      have hne : (l.reverse ++ [e']) ≠ [] := by simp
      rw [List.head?_append]
      cases hx : (l.reverse ++ [e']).head? with
      | none => simp at hx
      | some x => rw [hx] at this; simpa [hx] using this

/-- The first and last of what is not trivia are in order. -/
theorem span_order {a b : Nat} : ∀ {l : List Elem}, Tiles a b l → (∀ c ∈ l, c.Wf) →
    (∀ x, l.findSome? Elem.spanStart? = some x → a ≤ x ∧ x ≤ b) ∧
    (∀ y, l.reverse.findSome? Elem.spanEnd? = some y → a ≤ y ∧ y ≤ b) ∧
    (l.findSome? Elem.spanStart? = none ↔ l.reverse.findSome? Elem.spanEnd? = none) ∧
    (∀ x y, l.findSome? Elem.spanStart? = some x → l.reverse.findSome? Elem.spanEnd? = some y → x ≤ y) := by
  intro l
  induction l generalizing a with
  | nil => intro _ _; simp
  | cons e l ih =>
    intro h hw
    obtain ⟨i1, i2, i3, i4⟩ := ih h.2 fun c hc => hw c (by simp [hc])
    have h1 := h.1
    have h2 := full_le (hw e (by simp))
    have h3 := h.2.le fun c hc => hw c (by simp [hc])
    have hse : (e.spanStart? = none ∧ e.spanEnd? = none) ∨ (e.spanStart? = some e.span.1 ∧ e.spanEnd? = some e.span.2) := by
      cases e <;> simp [Elem.spanStart?, Elem.spanEnd?, Elem.span]
    simp only [List.reverse_cons, List.findSome?_append, List.findSome?_cons, List.findSome?_nil]
    rcases hse with ⟨hs, he⟩ | ⟨hs, he⟩
    · rw [hs, he]
      simp only [Option.or_none]
      refine ⟨fun x hx => ?_, fun y hy => ?_, i3, i4⟩
      · have := i1 x hx; omega
      · have := i2 y hy; omega
    · rw [hs, he]
      simp only [Option.some.injEq]
      cases hl : l.reverse.findSome? Elem.spanEnd? with
      | none =>
        simp only [Option.none_or, Option.some.injEq]
        refine ⟨?_, ?_, by simp, ?_⟩
        · rintro x rfl; omega
        · rintro x rfl; omega
        · rintro x y rfl rfl; omega
      | some y =>
        have := i2 y hl
        simp only [Option.some_or, Option.some.injEq]
        refine ⟨?_, ?_, by simp, ?_⟩
        · rintro x rfl; omega
        · rintro x rfl; omega
        · rintro x y rfl rfl; omega

theorem close_spec {o : Open} {pos} (h : Tiles o.at_ pos o.children) (hw : ∀ c ∈ o.children, c.Wf) :
    o.close.Wf ∧ o.close.full = (o.at_, pos) ∧ o.close.leaves = Elem.leaves.go o.children ∧ o.close.ids = o.id :: Elem.ids.go o.children := by
  obtain ⟨i1, i2, i3, i4⟩ := span_order h hw
  have hle := h.le hw
  have hl := h.last
  refine ⟨?_, ?_, rfl, rfl⟩
  · simp only [Open.close, Elem.Wf, hl, Elem.Wf_go]
    refine ⟨h, ?_, ?_, ?_, hw⟩
    · cases hx : o.children.findSome? Elem.spanStart? with
      | none => simp
      | some x => have := i1 x hx; simp; omega
    · cases hx : o.children.findSome? Elem.spanStart? with
      | none => rw [i3.mp hx]; simp
      | some x =>
        cases hy : o.children.reverse.findSome? Elem.spanEnd? with
        | none => rw [i3.mpr hy] at hx; cases hx
        | some y => have := i4 x y hx hy; simpa using this
    · cases hy : o.children.reverse.findSome? Elem.spanEnd? with
      | none => simpa using hle
      | some y => have := i2 y hy; simp; omega
  · simp only [Open.close, Elem.full, hl]

theorem BI.push {start pos o os pos' e} (h : BI start (o :: os) pos) (he : e.Wf) (hf : e.full = (pos, pos')) :
    BI start ({ o with children := o.children ++ [e] } :: os) pos' := by
  obtain ⟨h1, h2, h3, h4⟩ := h
  have hle : pos ≤ pos' := by have := (full_le he).1; rw [hf] at this; exact this
  refine ⟨h1.append ?_, ?_, by simp only; omega, h4⟩
  · simp [Tiles, hf]
  · intro c hc
    rcases List.mem_append.mp hc with hc | hc
    · exact h2 c hc
    · simp at hc; subst hc; exact he

/-- A list of trivia tokens, as pairs of kind and length. -/
def trivOf : List Tok → List (TriviaKind × Nat)
  | [] => []
  | t :: ts => match t.kind with
    | .trivia k => (k, t.text.length) :: trivOf ts
    | .token _ => trivOf ts

theorem trivOf_append (a b : List Tok) : trivOf (a ++ b) = trivOf a ++ trivOf b := by
  induction a with
  | nil => rfl
  | cons t a ih =>
    simp only [List.cons_append, trivOf, ih]
    split <;> rfl

/-- What a builder has taken in: the tokens `cs` from `start` on. -/
structure Has (start : Nat) (cs : List Tok) (n : Nat) (b : Builder) : Prop where
  bi : BI start b.nodes b.pos
  pos : b.pos = start + bytes cs
  leaves : leavesB b.nodes = place start cs
  ids : idsB b.nodes = List.range n

theorem Has.push {start cs n b} {t : Tok} {e : Elem} (h : Has start cs n b) (he : e.leaves = [(t.kind, (b.pos, b.pos + t.text.length))])
    (hf : e.full = (b.pos, b.pos + t.text.length)) (hw : e.Wf) (hi : e.ids = []) :
    ∃ b', (b.push e).map (fun b => { b with pos := b.pos + t.text.length }) = some b' ∧ Has start (cs ++ [t]) n b' ∧ b'.nodes.length = b.nodes.length := by
  obtain ⟨nodes, pos⟩ := b
  obtain ⟨h1, h2, h3, h4⟩ := h
  cases nodes with
  | nil => exact absurd h1 (by simp [BI])
  | cons o os =>
    simp only at *
    refine ⟨_, rfl, ⟨h1.push hw hf, ?_, ?_, ?_⟩, rfl⟩
    · simp only [h2, bytes_append, bytes_cons]; simp [bytes]; omega
    · simp only [leavesB, Elem.leaves_go_append, Elem.leaves.go, he, List.append_nil] at h3 ⊢
      rw [← List.append_assoc, h3, place_append, h2]; rfl
    · simp only [idsB, Elem.ids_go_append, Elem.ids.go, hi, List.append_nil] at h4 ⊢
      exact h4

theorem Has.trivias : ∀ {ts : List Tok} {start cs n b}, Has start cs n b → kindsOf ts = [] →
    ∃ b', addTrivias (trivOf ts) b = some b' ∧ Has start (cs ++ ts) n b' ∧ b'.nodes.length = b.nodes.length
  | [], start, cs, n, b, h, _ => ⟨b, rfl, by simpa using h, rfl⟩
  | ⟨.token k, tx⟩ :: ts, start, cs, n, b, h, hk => by simp [kindsOf] at hk
  | ⟨.trivia k, tx⟩ :: ts, start, cs, n, b, h, hk => by
    obtain ⟨b1, hb1, h1, hl1⟩ := h.push (t := ⟨.trivia k, tx⟩) (e := .trivia k (b.pos, b.pos + tx.length)) rfl rfl
      (by simp [Elem.Wf]) rfl
    obtain ⟨b2, hb2, h2, hl2⟩ := h1.trivias (ts := ts) (by simpa [kindsOf] using hk)
    refine ⟨b2, ?_, by simpa using h2, by omega⟩
    have hb1' : b.addTrivia k tx.length = some b1 := hb1
    simp only [trivOf, addTrivias, hb1', Option.bind_some]
    exact hb2

theorem lead_spec (ts : List Tok) : ∃ l, ts = l ++ (leadTrivia ts).2 ∧ kindsOf l = [] ∧ trivOf l = (leadTrivia ts).1 ∧
    ((leadTrivia ts).2 = [] ∨ ∃ k tx r, (leadTrivia ts).2 = ⟨.token k, tx⟩ :: r) := by
  induction ts with
  | nil => exact ⟨[], rfl, rfl, rfl, .inl rfl⟩
  | cons t ts ih =>
    obtain ⟨kind, tx⟩ := t
    cases kind with
    | token k => exact ⟨[], rfl, rfl, rfl, .inr ⟨k, tx, ts, rfl⟩⟩
    | trivia k =>
      obtain ⟨l, h1, h2, h3, h4⟩ := ih
      refine ⟨⟨.trivia k, tx⟩ :: l, ?_, by simpa [kindsOf] using h2, ?_, by simpa only [leadTrivia] using h4⟩
      · simp only [leadTrivia, List.cons_append]; rw [← h1]
      · simp only [leadTrivia, trivOf]; rw [h3]

theorem split_spec : ∀ (l : List Tok), kindsOf l = [] → ∃ a b, l = a ++ b ∧ kindsOf a = [] ∧ kindsOf b = [] ∧
    splitTrivia (trivOf l) = (trivOf a, trivOf b)
  | [], _ => ⟨[], [], rfl, rfl, rfl, rfl⟩
  | ⟨.token k, tx⟩ :: ts, hk => by simp [kindsOf] at hk
  | ⟨.trivia k, tx⟩ :: ts, hk => by
    have hk' : kindsOf ts = [] := by simpa [kindsOf] using hk
    by_cases hn : k = .newline
    · refine ⟨[⟨.trivia k, tx⟩], ts, rfl, rfl, hk', ?_⟩
      simp [trivOf, splitTrivia, hn]
    · obtain ⟨a, b, h1, h2, h3, h4⟩ := split_spec ts hk'
      refine ⟨⟨.trivia k, tx⟩ :: a, b, by rw [h1]; rfl, by simpa [kindsOf] using h2, h3, ?_⟩
      simp [trivOf, splitTrivia, hn, h4]

/-- The state of `events_to_node`: `cs` is in the tree, `tr` is waiting, `s.lexer` is left. -/
structure NInv (start : Nat) (cs tr : List Tok) (s : NodeState) : Prop where
  has : Has start cs s.nextId s.builder
  triv : kindsOf tr = []
  trivia : s.trivia = trivOf tr
  head : s.lexer = [] ∨ ∃ k tx r, s.lexer = ⟨.token k, tx⟩ :: r

theorem nodeSteps_spec {start : Nat} {toks : List Tok} {P : Nat → Nat → Prop} : ∀ (ev : List Event) (cs tr : List Tok) (s : NodeState) (x : Nat) (rest : List TokenKind),
    NInv start cs tr s → toks = cs ++ tr ++ s.lexer → s.builder.nodes.length = x + 1 →
    (∀ n, fi (ev.take n) ≤ st (ev.take n) + x) → fi ev = st ev + x → kindsOf s.lexer = toksOf ev ++ rest →
    (∀ e ∈ ev, e ≠ .placeholder) → (∀ a b, Event.error a b ∈ ev → P a b) → (∀ d ∈ s.errors, P d.1 d.2) →
    ∃ cs' tr' s', nodeSteps ev s = some s' ∧ NInv start (cs ++ cs') tr' s' ∧ toks = cs ++ cs' ++ tr' ++ s'.lexer ∧ s'.builder.nodes.length = 1 ∧
      kindsOf s'.lexer = rest ∧ (toksOf ev ≠ [] → cs' ≠ []) ∧ (∀ d ∈ s'.errors, P d.1 d.2)
  | [], cs, tr, s, x, rest, hI, ht, hlen, _, htot, hk, _, _, he => by
    have hx : x = 0 := by simpa [fi, st] using htot.symm
    refine ⟨[], tr, s, rfl, by simpa using hI, by simpa using ht, by omega, by simpa [toksOf] using hk, by simp [toksOf], he⟩
  | e :: ev, cs, tr, s, x, rest, hI, ht, hlen, hpre, htot, hk, hph, herr, he => by
    have hph' : ∀ e ∈ ev, e ≠ .placeholder := fun e' h => hph e' (by simp [h])
    have herr' : ∀ a b, Event.error a b ∈ ev → P a b := fun a b h => herr a b (by simp [h])
    have take1 : ∀ n, (e :: ev).take (n + 1) = e :: ev.take n := fun n => rfl
    simp only [nodeSteps]
    cases e with
    | placeholder => exact absurd rfl (hph _ (by simp))
    | error a b =>
      simp only [nodeStep, Option.bind_some]
      refine nodeSteps_spec ev cs tr _ x rest ⟨hI.has, hI.triv, hI.trivia, hI.head⟩ ht hlen ?_ ?_ hk hph' herr' ?_
      · intro n
        have := hpre (n + 1)
        rw [take1] at this
        simpa [st, fi, isStart, isFinish] using this
      · simpa [st, fi, isStart, isFinish] using htot
      · intro d hd
        simp only at hd
        split at hd
        · rcases List.mem_append.mp hd with hd | hd
          · exact he d hd
          · simp at hd; subst hd; exact herr a b (by simp)
        · exact he d hd
    | startNode k f =>
      simp only [nodeStep, Option.bind_some]
      refine nodeSteps_spec ev cs tr _ (x + 1) rest ⟨⟨?_, hI.has.pos, ?_, ?_⟩, hI.triv, hI.trivia, hI.head⟩ ht ?_ ?_ ?_ hk hph' herr' he
      · have := hI.has.bi
        simp only [Builder.startNode, BI]
        refine ⟨rfl, by simp, Nat.le_refl _, ?_⟩
        cases hn : s.builder.nodes with
        | nil => rw [hn] at this; exact absurd this (by simp [BI])
        | cons o os => rw [hn] at this; exact this
      · simpa [Builder.startNode, leavesB, Elem.leaves.go] using hI.has.leaves
      · simp only [Builder.startNode, idsB, Elem.ids.go, hI.has.ids, List.range_succ]
      · simp [Builder.startNode, hlen]
      · intro n
        have := hpre (n + 1)
        rw [take1] at this
        simp [st, fi, isStart, isFinish, List.countP_cons] at this ⊢
        omega
      · simp [st, fi, isStart, isFinish, List.countP_cons] at htot ⊢
        omega
    | finishNode =>
      have hx : 1 ≤ x := by
        have := hpre 1
        simpa [st, fi, isStart, isFinish] using this
      obtain ⟨y, rfl⟩ : ∃ y, x = y + 1 := ⟨x - 1, by omega⟩
      have hbi := hI.has.bi
      have hlv := hI.has.leaves
      have hid := hI.has.ids
      obtain ⟨⟨nodes, pos⟩, lexer, trivia, nextId, since, errors⟩ := s
      simp only at *
      match nodes, hlen with
      | o :: o' :: os, hlen =>
      obtain ⟨b1, b2, b3, b4⟩ := hbi
      simp only at b4
      obtain ⟨c1, c2, c3, c4⟩ := close_spec b1 b2
      simp only [nodeStep, Builder.finishNode, Builder.push, Option.map_some, Option.bind_some]
      refine nodeSteps_spec ev cs tr _ y rest ⟨⟨b4.push c1 c2, hI.has.pos, ?_, ?_⟩, hI.triv, hI.trivia, hI.head⟩ ht ?_ ?_ ?_ hk hph' herr' he
      · simp only [leavesB, Elem.leaves_go_append, Elem.leaves.go, c3, List.append_nil] at hlv ⊢
        rw [← List.append_assoc]; exact hlv
      · simp only [idsB, Elem.ids_go_append, Elem.ids.go, c4, List.append_nil] at hid ⊢
        simpa using hid
      · simpa using hlen
      · intro n
        have := hpre (n + 1)
        rw [take1] at this
        simp [st, fi, isStart, isFinish, List.countP_cons] at this ⊢
        omega
      · simp [st, fi, isStart, isFinish, List.countP_cons] at htot ⊢
        omega
    | addToken k =>
      simp only [toksOf, List.cons_append] at hk
      obtain ⟨builder, lexer, trivia, nextId, since, errors⟩ := s
      simp only at *
      rcases hI.head with hh | ⟨k', tx, r, hh⟩
      · simp only at hh; rw [hh] at hk; simp [kindsOf] at hk
      simp only at hh
      subst hh
      simp only [kindsOf, List.cons.injEq] at hk
      obtain ⟨rfl, hk⟩ := hk
      obtain ⟨b1, hb1, h1, hl1⟩ := hI.has.trivias hI.triv
      obtain ⟨b2, hb2, h2, hl2⟩ := h1.push (t := ⟨.token k', tx⟩) (e := .token k' (b1.pos, b1.pos + tx.length)) rfl rfl (by simp [Elem.Wf]) rfl
      have hb2' : b1.addToken k' tx.length = some b2 := hb2
      obtain ⟨l, l1, l2, l3, l4⟩ := lead_spec r
      obtain ⟨a, b, s1, s2, s3, s4⟩ := split_spec l l2
      obtain ⟨b3, hb3, h3, hl3⟩ := h2.trivias s2
      have htr := hI.trivia
      simp only at htr
      simp only [nodeStep, htr, hb1, Option.bind_some, if_true, hb2', ← l3, s4, hb3, Option.map_some]
      have hkl : kindsOf (leadTrivia r).2 = toksOf ev ++ rest := by
        rw [← hk]
        conv => rhs; rw [l1]
        rw [kindsOf_append, l2]; rfl
      have hp1 : ∀ n, fi (ev.take n) ≤ st (ev.take n) + x := by
        intro n
        have := hpre (n + 1)
        rw [take1] at this
        simpa [st, fi, isStart, isFinish] using this
      have hp2 : fi ev = st ev + x := by
        simpa [st, fi, isStart, isFinish] using htot
      obtain ⟨cs', tr', s', g1, g2, g3, g4, g5, g6, g7⟩ := nodeSteps_spec (toks := toks) (P := P) ev (cs ++ tr ++ [⟨.token k', tx⟩] ++ a) b
        { builder := b3, lexer := (leadTrivia r).2, trivia := trivOf b, nextId, sinceError := since + 1, errors } x rest
        ⟨h3, s3, rfl, l4⟩ (by
          rw [ht]
          conv => lhs; rw [l1, s1]
          simp) (by simp only at hl1 ⊢; rw [hl3, hl2, hl1]; exact hlen) hp1 hp2 hkl hph' herr' he
      · refine ⟨tr ++ [⟨.token k', tx⟩] ++ a ++ cs', tr', s', g1, ?_, ?_, g4, g5, by simp, g7⟩
        · simpa [List.append_assoc] using g2
        · rw [g3]; simp [List.append_assoc]

/-- The whole of `events_to_node`. -/
theorem eventsToNode_ok {ev : List Event} {start : Nat} {toks : List Tok} {eatAll : Bool} {P : Nat → Nat → Prop} (hp : Pre ev) (ht : st ev = fi ev)
    {rest : List TokenKind} (hk : kindsOf toks = toksOf ev ++ rest) (hall : eatAll = true → rest = []) (hph : ∀ e ∈ ev, e ≠ .placeholder)
    (herr : ∀ a b, Event.error a b ∈ ev → P a b) :
    ∃ root errs cs left, eventsToNode ev start toks eatAll = some (root, errs) ∧ toks = cs ++ left ∧ root.Wf ∧ root.full = (start, start + bytes cs) ∧
      root.leaves = place start cs ∧ (∃ n, root.ids = List.range n) ∧ (eatAll = true → left = []) ∧ (toksOf ev ≠ [] → cs ≠ []) ∧
      (∀ d ∈ errs, P d.1 d.2) := by
  obtain ⟨l, l1, l2, l3, l4⟩ := lead_spec toks
  have hkl : kindsOf (leadTrivia toks).2 = toksOf ev ++ rest := by
    rw [← hk]
    conv => rhs; rw [l1]
    rw [kindsOf_append, l2]; rfl
  obtain ⟨cs, tr, s, h1, h2, h3, h4, h5, h6, h7⟩ := nodeSteps_spec (start := start) (toks := toks) (P := P) ev [] l
    { builder := ({ nodes := [], pos := start } : Builder).startNode 0 .root, lexer := (leadTrivia toks).2, trivia := (leadTrivia toks).1, nextId := 1, sinceError := 2, errors := [] } 0 rest
    ⟨⟨⟨rfl, by simp [Builder.startNode], Nat.le_refl _, rfl⟩, by simp [Builder.startNode, bytes], rfl, rfl⟩, l2, l3.symm, l4⟩
    (by simpa using l1) rfl (by simpa [Pre] using hp) (by simpa using ht.symm) hkl hph herr (by simp)
  simp only [List.nil_append] at h2 h3
  -- closing the root
  have fin : ∀ cs n b, Has start cs n b → b.nodes.length = 1 → ∃ root, b.finish = some root ∧ root.Wf ∧ root.full = (start, start + bytes cs) ∧
      root.leaves = place start cs ∧ root.ids = List.range n := by
    intro cs n b hb hl
    obtain ⟨nodes, pos⟩ := b
    obtain ⟨b1, b2, b3, b4⟩ := hb
    simp only at *
    match nodes, hl with
    | [o], _ =>
    obtain ⟨c1, c2, c3, c4⟩ := b1
    simp only at c4
    obtain ⟨d1, d2, d3, d4⟩ := close_spec c1 c2
    refine ⟨o.close, rfl, d1, by rw [d2, c4, b2], by rw [d3]; simpa [leavesB] using b3, by rw [d4]; simpa [idsB] using b4⟩
  unfold eventsToNode
  simp only [h1, Option.bind_some]
  cases eatAll with
  | false =>
    obtain ⟨root, r1, r2, r3, r4, r5⟩ := fin cs _ _ h2.has h4
    simp only [Bool.false_eq_true, if_false, Option.bind_some, r1, Option.map_some]
    exact ⟨root, _, cs, tr ++ s.lexer, rfl, by simpa [List.append_assoc] using h3, r2, r3, r4, ⟨_, r5⟩, by simp, h6, h7⟩
  | true =>
    obtain ⟨b, b1, b2, b3⟩ := h2.has.trivias h2.triv
    have hlx : s.lexer = [] := by
      rcases h2.head with h | ⟨k, tx, r, h⟩
      · exact h
      · rw [h] at h5
        simp [kindsOf, hall rfl] at h5
    obtain ⟨root, r1, r2, r3, r4, r5⟩ := fin _ _ _ b2 (by omega)
    simp only [if_true, h2.trivia, b1, Option.bind_some, hlx, addRest, r1, Option.map_some]
    refine ⟨root, _, cs ++ tr, [], rfl, by rw [hlx] at h3; simpa using h3, r2, r3, r4, ⟨_, r5⟩, by simp, ?_, h7⟩
    intro hne
    have := h6 hne
    simp [this]

end Tic.Parser
