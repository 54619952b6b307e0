import Verif.FormatProof
/-! The tree the calls build is read back as the events of the calls. -/
namespace Tic.Format

def bigF (fs : List Frame) : Bool := fs.any fun g => g.large || bigL g.before

def flagsF (rest : List Call) : List Frame → List (Bool × Bool)
  | [] => []
  | g :: fs => (bigF (g :: fs) || largeInside fs.length rest, g.indents) :: flagsF rest fs

def enterIf (b : Bool) : List Ev := if b then [.enter] else []
def leaveIf (b : Bool) : List Ev := if b then [.leave] else []

def pre (rest : List Call) (R : Bool) (f : Frame) : List Frame → List Ev
  | [] => evsL R f.before
  | g :: fs => evsL R f.before ++ (enterIf g.indents ++
      pre rest (bigF (g :: fs) || largeInside fs.length rest) g fs)

def topFlag (R : Bool) (st : List (Bool × Bool)) : Bool :=
  match st with
  | [] => R
  | n :: _ => n.1

theorem bigF_cons (g : Frame) (fs : List Frame) :
    bigF (g :: fs) = (g.large || bigL g.before || bigF fs) := by simp [bigF]

theorem bigF_append (a b : List Frame) : bigF (a ++ b) = (bigF a || bigF b) := by
  simp [bigF, List.any_append]

theorem bigL_plug : ∀ (f : Frame) (fs : List Frame), bigL (plug f fs) = (bigL f.before || bigF fs)
  | f, [] => by simp [plug, bigF]
  | f, g :: fs => by
    simp only [plug, bigL_append, bigL, bigE, bigL_plug g fs, bigF_cons, Bool.or_false]
    simp only [Bool.or_assoc]

theorem plug_evs (R : Bool) : ∀ (f : Frame) (fs : List Frame), evsL R (plug f fs) =
    pre [] R f fs ++ (flagsF [] fs).reverse.flatMap (fun n => leaveIf n.2)
  | f, [] => by simp [plug, pre, flagsF]
  | f, g :: fs => by
    have ih := plug_evs (bigF (g :: fs) || largeInside fs.length []) g fs
    have e1 : (bigF (g :: fs) || largeInside fs.length []) = (g.large || bigL (plug g fs)) := by
      rw [bigL_plug, bigF_cons]
      simp [largeInside, Bool.or_assoc]
    simp only [plug, evsL_append, pre, flagsF, List.reverse_cons, List.flatMap_append, evsL, evsE,
      List.append_nil]
    rw [← e1, ih]
    simp [enterIf, leaveIf, List.append_assoc]

theorem events_nil (R : Bool) (st : List (Bool × Bool)) :
    events R st [] = st.flatMap fun n => leaveIf n.2 := by
  cases st <;> simp [events, leaveIf]

/-! ### A plain element -/

theorem pushF_len : ∀ (f : Frame) (e : Elem) (fs : List Frame), (pushF f e fs).2.length = fs.length
  | _, _, [] => rfl
  | _, e, g :: fs => by simp [pushF, pushF_len g e fs]

theorem pushF_flags (f : Frame) (e : Elem) : ∀ fs : List Frame,
    (pushF f e fs).1.large = f.large ∧ (pushF f e fs).1.indents = f.indents
  | [] => by simp [pushF]
  | _ :: _ => by simp [pushF]

theorem pushF_big {e : Elem} (he : bigE e = false) : ∀ (f : Frame) (fs : List Frame),
    bigF ((pushF f e fs).1 :: (pushF f e fs).2) = bigF (f :: fs)
  | f, [] => by simp [pushF, bigF, bigL_append, bigL, he]
  | f, g :: fs => by
    have ih := pushF_big he g fs
    simp only [pushF]
    rw [bigF_cons, ih, bigF_cons f]

theorem pushF_flagsF {e : Elem} {rest rest' : List Call} (he : bigE e = false)
    (hr : ∀ d, largeInside d rest' = largeInside d rest) : ∀ (f : Frame) (fs : List Frame),
    flagsF rest (pushF f e fs).2 = flagsF rest' fs
  | f, [] => by simp [pushF, flagsF]
  | f, g :: fs => by
    simp only [pushF, flagsF, pushF_big he, pushF_len, hr, (pushF_flags g e fs).2]
    rw [pushF_flagsF he hr g fs]

theorem topFlag_snoc (R : Bool) (x : Bool × Bool) (xs : List (Bool × Bool)) :
    topFlag R ((x :: xs).reverse) = topFlag x.1 xs.reverse := by
  cases h : xs.reverse with
  | nil => simp [h, topFlag]
  | cons y ys => simp [h, topFlag]

theorem pushF_pre {e : Elem} {rest rest' : List Call} (he : bigE e = false)
    (hr : ∀ d, largeInside d rest' = largeInside d rest) : ∀ (R : Bool) (f : Frame) (fs : List Frame),
    pre rest R (pushF f e fs).1 (pushF f e fs).2 =
      pre rest' R f fs ++ evsE (topFlag R (flagsF rest' fs).reverse) e
  | R, f, [] => by simp [pushF, pre, flagsF, topFlag, evsL_append, evsL]
  | R, f, g :: fs => by
    have ih := pushF_pre he hr (bigF (g :: fs) || largeInside fs.length rest) g fs
    simp only [pushF, pre, pushF_big he, pushF_len, (pushF_flags g e fs).2, ih, List.append_assoc,
      flagsF, topFlag_snoc, hr]

/-! ### A new node -/

theorem start_flagsF (l i : Bool) (rest : List Call) : ∀ fs : List Frame,
    flagsF rest (fs ++ [⟨l, i, []⟩]) =
      flagsF (.start l i :: rest) fs ++ [(l || largeInside 0 rest, i)]
  | [] => by simp [flagsF, bigF, bigL]
  | g :: fs => by
    simp only [List.cons_append, flagsF, start_flagsF l i rest fs, List.length_append,
      List.length_singleton, List.cons.injEq, Prod.mk.injEq, and_true]
    rw [show g :: (fs ++ [(⟨l, i, []⟩ : Frame)]) = (g :: fs) ++ [⟨l, i, []⟩] by rfl, bigF_append]
    simp [bigF, bigL, largeInside, Bool.or_assoc]

theorem start_pre (l i : Bool) (rest : List Call) : ∀ (R : Bool) (f : Frame) (fs : List Frame),
    pre rest R f (fs ++ [⟨l, i, []⟩]) = pre (.start l i :: rest) R f fs ++ enterIf i
  | R, f, [] => by simp [pre, evsL]
  | R, f, g :: fs => by
    simp only [List.cons_append, pre, List.append_assoc, start_pre l i rest _ g fs]
    have : (bigF (g :: (fs ++ [(⟨l, i, []⟩ : Frame)])) ||
        largeInside (fs ++ [(⟨l, i, []⟩ : Frame)]).length rest) =
        (bigF (g :: fs) || largeInside fs.length (.start l i :: rest)) := by
      rw [show g :: (fs ++ [(⟨l, i, []⟩ : Frame)]) = (g :: fs) ++ [⟨l, i, []⟩] by rfl, bigF_append]
      simp [bigF, bigL, largeInside, Bool.or_assoc]
    rw [this]

/-! ### The end of a node -/

theorem closeF_flags (f : Frame) : ∀ fs : List Frame,
    (closeF f fs).1.large = f.large ∧ (closeF f fs).1.indents = f.indents
  | [] => by simp [closeF]
  | [_] => by simp [closeF]
  | _ :: _ :: _ => by simp [closeF]

theorem closeF_len : ∀ (f : Frame) (fs : List Frame), (closeF f fs).2.length = fs.length - 1
  | f, [] => by simp [closeF]
  | f, [_] => by simp [closeF]
  | f, g :: k :: fs => by simp [closeF, closeF_len g (k :: fs)]

theorem closeF_big : ∀ (f : Frame) (fs : List Frame),
    bigF ((closeF f fs).1 :: (closeF f fs).2) = bigF (f :: fs)
  | f, [] => by simp [closeF]
  | f, [g] => by simp [closeF, bigF, bigL_append, bigL, bigE, Bool.or_assoc]
  | f, g :: k :: fs => by
    have ih := closeF_big g (k :: fs)
    simp only [closeF]
    rw [bigF_cons, ih, bigF_cons f]

theorem closeF_flagsF (rest : List Call) : ∀ (f : Frame) (fs : List Frame),
    flagsF rest (closeF f fs).2 = (flagsF (.finish :: rest) fs).dropLast
  | f, [] => by simp [closeF, flagsF]
  | f, [g] => by simp [closeF, flagsF]
  | f, g :: k :: fs => by
    have ih := closeF_flagsF rest g (k :: fs)
    simp only [closeF, flagsF, closeF_big, closeF_len, (closeF_flags g (k :: fs)).2, ih,
      List.length_cons, Nat.add_sub_cancel, List.dropLast_cons₂, largeInside]

theorem closeF_pre (rest : List Call) : ∀ (R : Bool) (f : Frame) (fs : List Frame),
    pre rest R (closeF f fs).1 (closeF f fs).2 = pre (.finish :: rest) R f fs ++
      (match (flagsF (.finish :: rest) fs).reverse with
        | [] => []
        | n :: _ => leaveIf n.2)
  | R, f, [] => by simp [closeF, pre, flagsF]
  | R, f, [g] => by
    simp [closeF, pre, flagsF, evsL_append, evsL, evsE, bigF, largeInside, enterIf, leaveIf]
  | R, f, g :: k :: fs => by
    have ih := closeF_pre rest (bigF (g :: k :: fs) || largeInside fs.length rest) g (k :: fs)
    simp only [closeF, pre, closeF_big, closeF_len, (closeF_flags g (k :: fs)).2, ih,
      List.length_cons, Nat.add_sub_cancel, largeInside, List.append_assoc]
    have : ∀ (x y : Bool × Bool) (xs : List (Bool × Bool)),
        (match (x :: y :: xs).reverse with
          | [] => ([] : List Ev)
          | n :: _ => leaveIf n.2) = match (y :: xs).reverse with
          | [] => []
          | n :: _ => leaveIf n.2 := by
      intro x y xs
      cases h : (y :: xs).reverse with
      | nil => simp at h
      | cons a as =>
        rw [List.reverse_cons, h]
        rfl
    simp only [flagsF, this]

/-! ### All calls -/

theorem anyLargeCall_cons (c : Call) (cs : List Call) : anyLargeCall (c :: cs) =
    ((match c with
      | .start l _ => l
      | _ => false) || anyLargeCall cs) := by
  cases c <;> simp [anyLargeCall]

theorem events_fold : ∀ (rest : List Call) (f : Frame) (fs : List Frame) (R : Bool),
    f.large = false → AllShut f fs → R = (bigF (f :: fs) || anyLargeCall rest) →
    evsL (bigL (rest.foldl applyCall (plug f fs))) (rest.foldl applyCall (plug f fs)) =
      pre rest R f fs ++ events R (flagsF rest fs).reverse rest := by
  intro rest
  induction rest with
  | nil =>
    intro f fs R hf hs hR
    simp only [List.foldl_nil, events_nil]
    rw [plug_evs]
    have : bigL (plug f fs) = R := by
      rw [hR, bigL_plug, bigF_cons, hf]; simp [anyLargeCall]
    rw [this]
  | cons c rest ih =>
    intro f fs R hf hs hR
    have plain : ∀ e : Elem, bigE e = false → (∀ l i cs, e ≠ .node l i false cs) →
        (∀ d, largeInside d (c :: rest) = largeInside d rest) →
        anyLargeCall (c :: rest) = anyLargeCall rest →
        applyCall (plug f fs) c = pushAt (plug f fs) e →
        events R (flagsF (c :: rest) fs).reverse (c :: rest) =
          evsE (topFlag R (flagsF (c :: rest) fs).reverse) e ++
            events R (flagsF (c :: rest) fs).reverse rest →
        evsL (bigL ((c :: rest).foldl applyCall (plug f fs)))
            ((c :: rest).foldl applyCall (plug f fs)) =
          pre (c :: rest) R f fs ++ events R (flagsF (c :: rest) fs).reverse (c :: rest) := by
      intro e he hn hl ha hap hev
      rw [List.foldl_cons, hap, plug_push f fs e hs]
      rw [ih _ _ R (by rw [(pushF_flags f e fs).1, hf]) (pushF_shut f fs e hs hn)
        (by rw [pushF_big he, hR, ha])]
      rw [pushF_pre he hl, pushF_flagsF he hl, hev, List.append_assoc]
    cases c with
    | token t s =>
      exact plain (.token t s) rfl (by intro l i cs h; cases h) (fun d => by cases d <;> rfl) rfl rfl
        (by cases (flagsF (.token t s :: rest) fs).reverse <;> simp [events, evsE])
    | newline =>
      exact plain .newline rfl (by intro l i cs h; cases h) (fun d => by cases d <;> rfl) rfl rfl
        (by cases (flagsF (.newline :: rest) fs).reverse <;> simp [events, evsE])
    | largeNewline =>
      exact plain .largeNewline rfl (by intro l i cs h; cases h) (fun d => by cases d <;> rfl) rfl rfl
        (by
          cases (flagsF (.largeNewline :: rest) fs).reverse with
          | nil => simp only [events, evsE, topFlag]; cases R <;> rfl
          | cons n ns =>
            obtain ⟨a, b⟩ := n
            simp only [events, evsE, topFlag]; cases a <;> rfl)
    | whitespace ws =>
      by_cases hw : ws.any (· == '\n') = true
      · exact plain .newline rfl (by intro l i cs h; cases h) (fun d => by cases d <;> rfl) rfl
          (by simp only [applyCall, hw, if_true])
          (by cases (flagsF (.whitespace ws :: rest) fs).reverse <;> simp only [events, evsE, hw, if_true])
      · have hl : ∀ d, largeInside d (.whitespace ws :: rest) = largeInside d rest :=
          fun d => by cases d <;> rfl
        have hpre : ∀ (R : Bool) (f : Frame) (fs : List Frame),
            pre (.whitespace ws :: rest) R f fs = pre rest R f fs := by
          intro R f fs
          induction fs generalizing R f with
          | nil => rfl
          | cons g fs ih => simp only [pre, hl, ih]
        have hfl : ∀ fs : List Frame, flagsF (.whitespace ws :: rest) fs = flagsF rest fs := by
          intro fs
          induction fs with
          | nil => rfl
          | cons g fs ih => simp only [flagsF, hl, ih]
        have hw' : ws.any (· == '\n') = false := by
          cases h : ws.any (· == '\n')
          · rfl
          · exact absurd h hw
        rw [List.foldl_cons]
        simp only [applyCall, hw', Bool.false_eq_true, if_false]
        rw [ih f fs R hf hs (by rw [hR]; rfl), hpre, hfl]
        cases (flagsF rest fs).reverse <;> simp [events, hw']
    | start l i =>
      rw [List.foldl_cons]
      simp only [applyCall]
      rw [plug_start f fs l i hs]
      rw [ih _ _ R hf (start_shut l i hs) (by
        rw [hR, anyLargeCall_cons, show f :: (fs ++ [(⟨l, i, []⟩ : Frame)]) = (f :: fs) ++ [⟨l, i, []⟩]
          by rfl, bigF_append]
        simp [bigF, bigL, Bool.or_assoc])]
      rw [start_pre, start_flagsF, List.reverse_append, List.append_assoc]
      cases h : (flagsF (.start l i :: rest) fs).reverse <;> simp [events, enterIf]
    | finish =>
      rw [List.foldl_cons]
      simp only [applyCall]
      rw [plug_close f fs hs]
      rw [ih _ _ R (by rw [(closeF_flags f fs).1, hf]) (closeF_shut f fs hs) (by
        rw [closeF_big, hR, anyLargeCall_cons]; simp)]
      rw [closeF_pre, closeF_flagsF, List.append_assoc]
      cases h : (flagsF (.finish :: rest) fs).reverse with
      | nil =>
        have : flagsF (.finish :: rest) fs = [] := by simpa using h
        simp [this, events]
      | cons n ns =>
        have : (flagsF (.finish :: rest) fs).dropLast.reverse = ns := by
          rw [← List.tail_reverse, h]; rfl
        rw [this]
        simp [events, leaveIf]

theorem calls_events (calls : List Call) :
    evsL (bigL (calls.foldl applyCall [])) (calls.foldl applyCall []) =
      events (anyLargeCall calls) [] calls := by
  have := events_fold calls ⟨false, false, []⟩ [] (anyLargeCall calls) rfl
    (by intro x hx; simp only [List.mem_singleton] at hx; subst hx; intro l i cs h; simp at h)
    (by simp [bigF, bigL])
  simpa [plug, pre, evsL, flagsF] using this

end Tic.Format
