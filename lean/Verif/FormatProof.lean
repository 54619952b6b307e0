import Verif.FormatSpec
/-! Proofs for the layout builder: the tree is read back as events, and the events are written as the
specification says. -/
namespace Tic.Format

/-! ## From the tree to events -/

mutual
def bigE : Elem → Bool
  | .node l _ _ cs => l || bigL cs
  | _ => false
def bigL : List Elem → Bool
  | [] => false
  | e :: es => bigE e || bigL es
end

mutual
theorem markElem_big : ∀ e : Elem, (markElem e).isLarge = bigE e
  | .node l i f cs => by simp only [markElem, Elem.isLarge, bigE, markList_big cs]
  | .token _ _ => by simp [markElem, Elem.isLarge, bigE]
  | .newline => by simp [markElem, Elem.isLarge, bigE]
  | .largeNewline => by simp [markElem, Elem.isLarge, bigE]
theorem markList_big : ∀ es : List Elem, (markList es).2 = bigL es
  | [] => by simp [markList, bigL]
  | e :: es => by
    simp only [markList, bigL, markList_big es, markElem_big e]
end

mutual
def evsE (big : Bool) : Elem → List Ev
  | .token t s => [.tok t s]
  | .newline => [.brk]
  | .largeNewline => if big then [.brk] else []
  | .node l i _ cs =>
    (if i then [.enter] else []) ++ evsL (l || bigL cs) cs ++ (if i then [.leave] else [])
def evsL (big : Bool) : List Elem → List Ev
  | [] => []
  | e :: es => evsE big e ++ evsL big es
end

/-- The raw builder run on events. -/
def runEvs : List Ev → Raw → Option Raw
  | [], r => some r
  | .tok t s :: es, r => (addToken r t s).bind (runEvs es)
  | .brk :: es, r => (addNewline r).bind (runEvs es)
  | .enter :: es, r => (pushLevel r).bind (runEvs es)
  | .leave :: es, r => runEvs es (popLevel r)

theorem runEvs_append : ∀ (a b : List Ev) (r : Raw),
    runEvs (a ++ b) r = (runEvs a r).bind (runEvs b)
  | [], b, r => by simp [runEvs]
  | e :: a, b, r => by
    have h : runEvs (a ++ b) = fun r => (runEvs a r).bind (runEvs b) := funext (runEvs_append a b)
    cases e <;> simp only [List.cons_append, runEvs, Option.bind_assoc, h]

mutual
theorem formatElem_evs (big : Bool) : ∀ (e : Elem) (r : Raw),
    formatElem big (markElem e) r = runEvs (evsE big e) r
  | .token t s, r => by
    simp only [markElem, formatElem, evsE, runEvs]
    cases addToken r t s <;> rfl
  | .newline, r => by
    simp only [markElem, formatElem, evsE, runEvs]
    cases addNewline r <;> rfl
  | .largeNewline, r => by
    simp only [markElem, formatElem, evsE]
    cases big
    · rfl
    · simp only [if_true, runEvs]
      cases addNewline r <;> rfl
  | .node l i f cs, r => by
    simp only [markElem, formatElem, evsE, markList_big cs]
    cases i
    · simp [formatList_evs (l || bigL cs) cs r]
    · simp only [if_true, List.cons_append, List.nil_append, runEvs]
      cases pushLevel r with
      | none => rfl
      | some r1 =>
        simp only [Option.bind_some, formatList_evs (l || bigL cs) cs r1, runEvs_append]
        cases runEvs (evsL (l || bigL cs) cs) r1 <;> rfl
theorem formatList_evs (big : Bool) : ∀ (es : List Elem) (r : Raw),
    formatList big (markList es).1 r = runEvs (evsL big es) r
  | [], r => by simp [markList, formatList, evsL, runEvs]
  | e :: es, r => by
    simp only [markList, formatList, evsL, runEvs_append, formatElem_evs big e r]
    cases runEvs (evsE big e) r with
    | none => rfl
    | some r1 => exact formatList_evs big es r1
end

theorem evsL_append (big : Bool) : ∀ a b : List Elem, evsL big (a ++ b) = evsL big a ++ evsL big b
  | [], b => by simp [evsL]
  | e :: a, b => by simp [evsL, evsL_append big a b, List.append_assoc]

theorem bigL_append : ∀ a b : List Elem, bigL (a ++ b) = (bigL a || bigL b)
  | [], b => by simp [bigL]
  | e :: a, b => by simp [bigL, bigL_append a b, Bool.or_assoc]

/-! ## The builder's state as a path of open nodes -/

/-- An open node and what it has so far, outermost first; the first one is the root. -/
structure Frame where
  large : Bool
  indents : Bool
  before : List Elem

def plug (f : Frame) : List Frame → List Elem
  | [] => f.before
  | g :: fs => f.before ++ [.node g.large g.indents false (plug g fs)]

/-- The last element is not an open node. -/
def Shut (es : List Elem) : Prop := ∀ l i cs, es.getLast? ≠ some (.node l i false cs)

theorem pushAt_shut : ∀ (es : List Elem) (e : Elem), Shut es → pushAt es e = es ++ [e]
  | [], e, _ => by simp [pushAt]
  | [x], e, h => by
    cases x with
    | node l i f cs =>
      cases f
      · exact absurd rfl (h l i cs)
      · simp [pushAt]
    | _ => simp [pushAt]
  | x :: y :: ys, e, h => by
    have : Shut (y :: ys) := fun l i cs hh => h l i cs (by simpa [List.getLast?_cons_cons] using hh)
    simp [pushAt, pushAt_shut (y :: ys) e this]

theorem pushAt_open : ∀ (es : List Elem) (l i : Bool) (cs : List Elem) (e : Elem),
    pushAt (es ++ [.node l i false cs]) e = es ++ [.node l i false (pushAt cs e)]
  | [], l, i, cs, e => by simp [pushAt]
  | [x], l, i, cs, e => by simp [pushAt]
  | x :: y :: ys, l, i, cs, e => by
    have := pushAt_open (y :: ys) l i cs e
    simp only [List.cons_append] at this
    simp [pushAt, this]

theorem finishAt_shut : ∀ (es : List Elem), Shut es → finishAt es = es
  | [], _ => by simp [finishAt]
  | [x], h => by
    cases x with
    | node l i f cs =>
      cases f
      · exact absurd rfl (h l i cs)
      · simp [finishAt]
    | _ => simp [finishAt]
  | x :: y :: ys, h => by
    have : Shut (y :: ys) := fun l i cs hh => h l i cs (by simpa [List.getLast?_cons_cons] using hh)
    simp [finishAt, finishAt_shut (y :: ys) this]

theorem finishAt_open : ∀ (es : List Elem) (l i : Bool) (cs : List Elem),
    finishAt (es ++ [.node l i false cs]) = es ++ finishAt [.node l i false cs]
  | [], l, i, cs => by simp
  | [x], l, i, cs => by simp [finishAt]
  | x :: y :: ys, l, i, cs => by
    have := finishAt_open (y :: ys) l i cs
    simp only [List.cons_append] at this
    simp [finishAt, this]

theorem finishAt_last {l i : Bool} {cs : List Elem} (h : Shut cs) :
    finishAt [.node l i false cs] = [.node l i true cs] := by
  rw [finishAt.eq_def]
  simp only []
  split
  · rename_i hh
    exact absurd hh (h _ _ _)
  · rfl

theorem finishAt_inner {l i : Bool} {cs : List Elem} {l' i' : Bool} {cs' : List Elem} :
    finishAt [.node l i false (cs ++ [.node l' i' false cs'])] =
      [.node l i false (finishAt (cs ++ [.node l' i' false cs']))] := by
  rw [finishAt.eq_def]
  simp only [List.getLast?_append, List.getLast?_singleton, Option.some_or]

/-- Add an element to the innermost open node. -/
def pushF (f : Frame) (e : Elem) : List Frame → Frame × List Frame
  | [] => ({ f with before := f.before ++ [e] }, [])
  | g :: fs => (f, (pushF g e fs).1 :: (pushF g e fs).2)

/-- Finish the innermost open node. -/
def closeF (f : Frame) : List Frame → Frame × List Frame
  | [] => (f, [])
  | [g] => ({ f with before := f.before ++ [.node g.large g.indents true g.before] }, [])
  | g :: h :: fs => (f, (closeF g (h :: fs)).1 :: (closeF g (h :: fs)).2)

def AllShut (f : Frame) (fs : List Frame) : Prop := ∀ g ∈ f :: fs, Shut g.before

theorem shut_snoc_token (es : List Elem) {e : Elem} (h : ∀ l i cs, e ≠ .node l i false cs) :
    Shut (es ++ [e]) := by
  intro l i cs hh
  simp only [List.getLast?_append, List.getLast?_singleton, Option.some_or] at hh
  exact h l i cs (Option.some.inj hh)

theorem plug_push : ∀ (f : Frame) (fs : List Frame) (e : Elem), AllShut f fs →
    pushAt (plug f fs) e = plug (pushF f e fs).1 (pushF f e fs).2
  | f, [], e, h => by simpa [plug, pushF] using pushAt_shut f.before e (h f (by simp))
  | f, g :: fs, e, h => by
    simp only [plug, pushF]
    rw [pushAt_open, plug_push g fs e (fun x hx => h x (List.mem_cons_of_mem _ hx))]
    have : (pushF g e fs).1.large = g.large ∧ (pushF g e fs).1.indents = g.indents := by
      cases fs <;> simp [pushF]
    rw [this.1, this.2]

theorem pushF_shut : ∀ (f : Frame) (fs : List Frame) (e : Elem), AllShut f fs →
    (∀ l i cs, e ≠ .node l i false cs) → AllShut (pushF f e fs).1 (pushF f e fs).2
  | f, [], e, h, he => by
    intro x hx
    simp only [pushF, List.mem_singleton] at hx
    subst hx
    exact shut_snoc_token _ he
  | f, g :: fs, e, h, he => by
    have ih := pushF_shut g fs e (fun x hx => h x (List.mem_cons_of_mem _ hx)) he
    intro x hx
    simp only [pushF, List.mem_cons] at hx
    rcases hx with rfl | hx
    · exact h x (by simp)
    · exact ih x (by simpa using hx)

theorem plug_close : ∀ (f : Frame) (fs : List Frame), AllShut f fs →
    finishAt (plug f fs) = plug (closeF f fs).1 (closeF f fs).2
  | f, [], h => by simpa [plug, closeF] using finishAt_shut f.before (h f (by simp))
  | f, [g], h => by
    simp only [plug, closeF]
    rw [finishAt_open, finishAt_last (h g (by simp))]
  | f, g :: k :: fs, h => by
    have ih := plug_close g (k :: fs) (fun x hx => h x (List.mem_cons_of_mem _ hx))
    have e1 : plug f (g :: k :: fs) = f.before ++ [.node g.large g.indents false (plug g (k :: fs))] :=
      rfl
    rw [e1, finishAt_open]
    have e2 : plug g (k :: fs) = g.before ++ [.node k.large k.indents false (plug k fs)] := rfl
    rw [show finishAt [Elem.node g.large g.indents false (plug g (k :: fs))] =
      [.node g.large g.indents false (finishAt (plug g (k :: fs)))] by rw [e2, finishAt_inner], ih]
    have : (closeF g (k :: fs)).1.large = g.large ∧ (closeF g (k :: fs)).1.indents = g.indents := by
      cases fs <;> simp [closeF]
    simp only [closeF, plug, this.1, this.2]

theorem closeF_shut : ∀ (f : Frame) (fs : List Frame), AllShut f fs →
    AllShut (closeF f fs).1 (closeF f fs).2
  | f, [], h => by simpa [closeF] using h
  | f, [g], h => by
    intro x hx
    simp only [closeF, List.mem_singleton] at hx
    subst hx
    exact shut_snoc_token _ (by intro l i cs hh; cases hh)
  | f, g :: k :: fs, h => by
    have ih := closeF_shut g (k :: fs) (fun x hx => h x (List.mem_cons_of_mem _ hx))
    intro x hx
    simp only [closeF, List.mem_cons] at hx
    rcases hx with rfl | hx
    · exact h x (by simp)
    · exact ih x (by simpa using hx)

theorem plug_start : ∀ (f : Frame) (fs : List Frame) (l i : Bool), AllShut f fs →
    pushAt (plug f fs) (.node l i false []) = plug f (fs ++ [⟨l, i, []⟩])
  | f, [], l, i, h => by simpa [plug] using pushAt_shut f.before _ (h f (by simp))
  | f, g :: fs, l, i, h => by
    simp only [plug, List.cons_append]
    rw [pushAt_open, plug_start g fs l i (fun x hx => h x (List.mem_cons_of_mem _ hx))]

theorem start_shut {f : Frame} {fs : List Frame} (l i : Bool) (h : AllShut f fs) :
    AllShut f (fs ++ [⟨l, i, []⟩]) := by
  intro x hx
  simp only [List.mem_cons, List.mem_append, List.not_mem_nil, or_false] at hx
  rcases hx with rfl | hx | rfl
  · exact h x (by simp)
  · exact h x (by simp [hx])
  · intro a b c hh; simp at hh

end Tic.Format
