import Verif.FormatRun
/-!
# C43: the layout builder writes what it was given

`/repo/formatter/src/lib.rs` (used by `ticc-core`'s printer).  The statements are about the public
methods only: a list of `Call`s made on a new `FormatBuilder`, and the text `finish` returns.
-/
namespace Tic.Format

/-- **C43.** Whatever methods are called, in whatever order (nodes need not be closed, and may be closed
too often), `finish` does not panic and returns exactly the text the left-to-right specification
gives.  (`2^32`: the indentation level is a `u32`.) -/
theorem layout_as_specified (calls : List Call) (h : calls.length < 2 ^ 32) :
    layout calls = some (expectedText calls) := layout_expected calls h

/-! ## What that comes to, token by token -/

/-- The tokens of the calls, each with its stickiness and the number of indenting nodes open around it.
The list of `Bool`s is the open nodes, innermost first: does it indent. -/
def tokenCalls : List Bool → List Call → List (List Char × Sticky × Nat)
  | _, [] => []
  | st, .token t s :: cs => (t, s, st.count true) :: tokenCalls st cs
  | st, .start _ i :: cs => tokenCalls (i :: st) cs
  | st, .finish :: cs => tokenCalls st.tail cs
  | st, _ :: cs => tokenCalls st cs

/-- The text consists of the tokens, in order.  Nothing stands before the first one, and at most one line
feed after the last.  Two neighbours are either on different lines, the second one indented by four
spaces for each of at most as many levels as it is inside indenting nodes; or on one line, with one
space between them unless one of them sticks to the other, and then with nothing. -/
def Laid (prev : Option Sticky) : List (List Char × Sticky × Nat) → List Char → Prop
  | [], out => out = [] ∨ (prev.isSome ∧ out = ['\n'])
  | (t, s, d) :: ts, out =>
    ∃ sep rest, out = sep ++ t ++ rest ∧ Laid (some s) ts rest ∧
      match prev with
      | none => sep = []
      | some p =>
        (∃ k, k ≤ d ∧ sep = '\n' :: List.replicate (4 * k) ' ') ∨
          sep = if p.toNext || s.toPrev then [] else [' ']

def evTokens : Nat → List Ev → List (List Char × Sticky × Nat)
  | _, [] => []
  | n, .tok t s :: es => (t, s, n) :: evTokens n es
  | n, .brk :: es => evTokens n es
  | n, .enter :: es => evTokens (n + 1) es
  | n, .leave :: es => evTokens (n - 1) es

theorem lineLevel_le : ∀ {ls : List Level}, Shallow ls → lineLevel ls ≤ ls.length
  | [], _ => Nat.le_refl _
  | l :: ls, h => by
    obtain ⟨lv, tk, nl⟩ := l
    have ih := lineLevel_le h.2
    cases tk
    · have : lineLevel (⟨lv, false, nl⟩ :: ls) = lineLevel ls := by simp [lineLevel]
      rw [this, List.length_cons]; omega
    · have h1 : lineLevel (⟨lv, true, nl⟩ :: ls) = lv := by simp [lineLevel]
      have h2 := h.1
      simp only at h2
      rw [h1, List.length_cons]; exact h2

theorem shallow_tail {ls : List Level} (h : Shallow ls) : Shallow ls.tail := by
  cases ls with
  | nil => trivial
  | cons l ls => exact h.2

theorem expected_laid : ∀ (es : List Ev) (prev : Option Sticky) (broken : Bool) (ls : List Level),
    Shallow ls → Laid prev (evTokens ls.length es) (expected prev broken ls es) := by
  intro es
  induction es with
  | nil =>
    intro prev broken ls _
    simp only [evTokens, Laid, expected]
    cases prev with
    | none => simp
    | some p => cases broken <;> simp
  | cons e es ih =>
    intro prev broken ls hs
    cases e with
    | tok t s =>
      simp only [evTokens, Laid, expected]
      have h := ih (some s) false (withTok ls) (shallow_withTok hs)
      rw [withTok_len] at h
      refine ⟨_, _, rfl, h, ?_⟩
      cases prev with
      | none => rfl
      | some p =>
        cases broken
        · exact Or.inr (by simp [separator])
        · exact Or.inl ⟨lineLevel ls, lineLevel_le hs, by simp [separator]⟩
    | brk =>
      simp only [evTokens, expected]
      split
      · have h := ih prev true (withNl ls) (shallow_withNl hs)
        rwa [withNl_len] at h
      · exact ih prev true ls hs
    | enter =>
      exact ih prev broken (innerLevel ls :: ls) ⟨hs.top, hs⟩
    | leave =>
      have h := ih prev broken ls.tail (shallow_tail hs)
      rw [List.length_tail] at h
      exact h

theorem evTokens_append_brk (n : Nat) (b : Bool) (es : List Ev) :
    evTokens n ((if b then [.brk] else []) ++ es) = evTokens n es := by cases b <;> rfl

theorem evTokens_leaves : ∀ (st : List (Bool × Bool)) (n : Nat),
    evTokens n (st.flatMap fun n => if n.2 then [.leave] else []) = []
  | [], _ => rfl
  | (a, b) :: st, n => by
    cases b
    · simpa using evTokens_leaves st n
    · simpa [evTokens] using evTokens_leaves st (n - 1)

theorem evTokens_events (R : Bool) : ∀ (cs : List Call) (st : List (Bool × Bool)),
    evTokens ((st.map Prod.snd).count true) (events R st cs) = tokenCalls (st.map Prod.snd) cs := by
  intro cs
  induction cs with
  | nil => intro st; rw [events, evTokens_leaves]; rfl
  | cons c cs ih =>
    intro st
    cases c with
    | token t s => rw [events]; simp only [evTokens, tokenCalls, ih]
    | newline => rw [events]; simp only [evTokens, tokenCalls, ih]
    | whitespace ws => rw [events, evTokens_append_brk, ih]; rfl
    | largeNewline =>
      cases st with
      | nil => rw [events, evTokens_append_brk, ih]; rfl
      | cons n st => rw [events, evTokens_append_brk, ih]; rfl
    | start l i =>
      rw [events]
      have := ih ((l || largeInside 0 cs, i) :: st)
      cases i
      · simpa [tokenCalls] using this
      · simpa [tokenCalls, evTokens] using this
    | finish =>
      cases st with
      | nil => rw [events, ih]; rfl
      | cons n st =>
        obtain ⟨a, b⟩ := n
        rw [events]
        have := ih st
        cases b
        · simpa [tokenCalls] using this
        · simpa [tokenCalls, evTokens] using this

/-- **C43.** No token is lost, repeated, reordered or changed, and nothing but the separators described
by `Laid` is added. -/
theorem layout_tokens (calls : List Call) (h : calls.length < 2 ^ 32) :
    ∃ out, layout calls = some out ∧ Laid none (tokenCalls [] calls) out := by
  refine ⟨_, layout_as_specified calls h, ?_⟩
  have h1 := expected_laid (events (anyLargeCall calls) [] calls) none false [] trivial
  have h2 := evTokens_events (anyLargeCall calls) calls []
  simp only [List.map_nil, List.count_nil] at h2
  simp only [List.length_nil] at h1
  rw [h2] at h1
  exact h1

theorem laid_dense : ∀ (ts : List (List Char × Sticky × Nat)) (prev : Option Sticky) (out : List Char),
    Laid prev ts out →
    out.filter (fun c => c != ' ' && c != '\n') =
      (ts.flatMap (·.1)).filter (fun c => c != ' ' && c != '\n')
  | [], prev, out, h => by
    rcases h with rfl | ⟨_, rfl⟩ <;> simp
  | (t, s, d) :: ts, prev, out, h => by
    obtain ⟨sep, rest, rfl, hr, hsep⟩ := h
    have ih := laid_dense ts _ _ hr
    have : sep.filter (fun c => c != ' ' && c != '\n') = [] := by
      cases prev with
      | none => simp only at hsep; subst hsep; rfl
      | some p =>
        simp only at hsep
        rcases hsep with ⟨k, _, rfl⟩ | rfl
        · simp
        · split <;> simp
    simp [List.filter_append, this, ih]

/-- **C43.** Apart from spaces and line feeds, the text is the tokens' text and nothing else. -/
theorem layout_dense (calls : List Call) (h : calls.length < 2 ^ 32) :
    ∃ out, layout calls = some out ∧
      out.filter (fun c => c != ' ' && c != '\n') =
        ((tokenCalls [] calls).flatMap (·.1)).filter (fun c => c != ' ' && c != '\n') := by
  obtain ⟨out, h1, h2⟩ := layout_tokens calls h
  exact ⟨out, h1, laid_dense _ _ _ h2⟩

/-- **C43.** A node takes effect only inside: when no node is large and no line break is asked for, the
whole text is on one line. -/
theorem one_line (calls : List Call) (h : calls.length < 2 ^ 32)
    (hs : ∀ c ∈ calls, c ≠ .newline ∧ (∀ i, c ≠ .start true i) ∧
      (∀ ws, c = .whitespace ws → '\n' ∉ ws) ∧ ∀ t s, c = .token t s → '\n' ∉ t) :
    ∃ out, layout calls = some out ∧ '\n' ∉ out := by
  refine ⟨_, layout_as_specified calls h, ?_⟩
  have hroot : anyLargeCall calls = false := by
    cases hh : anyLargeCall calls with
    | false => rfl
    | true =>
      simp only [anyLargeCall, List.any_eq_true] at hh
      obtain ⟨c, hc, hl⟩ := hh
      cases c with
      | start l i => simp only at hl; subst hl; exact absurd rfl ((hs _ hc).2.1 i)
      | _ => simp at hl
  have hin : ∀ (cs : List Call) (d : Nat), (∀ c ∈ cs, ∀ i, c ≠ .start true i) →
      largeInside d cs = false := by
    intro cs
    induction cs with
    | nil => intro d _; cases d <;> rfl
    | cons c cs ih =>
      intro d hc
      have ih' := fun d => ih d (fun x hx => hc x (List.mem_cons_of_mem _ hx))
      cases c with
      | start l i =>
        have : l = false := by
          cases l
          · rfl
          · exact absurd rfl (hc _ (List.mem_cons_self ..) i)
        cases d <;> simp [largeInside, this, ih']
      | finish => cases d <;> simp [largeInside, ih']
      | _ => cases d <;> simp [largeInside, ih']
  have hev : ∀ (cs : List Call) (st : List (Bool × Bool)), (∀ n ∈ st, n.1 = false) →
      (∀ c ∈ cs, c ≠ .newline ∧ (∀ i, c ≠ .start true i) ∧
        (∀ ws, c = .whitespace ws → '\n' ∉ ws) ∧ ∀ t s, c = .token t s → '\n' ∉ t) →
      Ev.brk ∉ events false st cs ∧ ∀ t s, Ev.tok t s ∈ events false st cs → '\n' ∉ t := by
    intro cs
    induction cs with
    | nil =>
      intro st _ _
      have hm : ∀ e ∈ events false st [], e = Ev.leave := by
        intro e he
        rw [events, List.mem_flatMap] at he
        obtain ⟨n, _, hn⟩ := he
        split at hn
        · simpa using hn
        · simp at hn
      exact ⟨fun hh => (by cases hm _ hh), fun t s hh => (by cases hm _ hh)⟩
    | cons c cs ih =>
      intro st hst hc
      have ih' := fun st hst => ih st hst (fun x hx => hc x (List.mem_cons_of_mem _ hx))
      have hc0 := hc c (List.mem_cons_self ..)
      cases c with
      | token t s =>
        rw [events]
        have := ih' st hst
        refine ⟨by simp [this.1], fun t' s' hh => ?_⟩
        rcases List.mem_cons.mp hh with hh | hh
        · cases hh; exact hc0.2.2.2 _ _ rfl
        · exact this.2 _ _ hh
      | newline => exact absurd rfl hc0.1
      | whitespace ws =>
        have hw : ws.any (· == '\n') = false := by
          cases hh : ws.any (· == '\n') with
          | false => rfl
          | true =>
            simp only [List.any_eq_true, beq_iff_eq] at hh
            obtain ⟨x, hx, rfl⟩ := hh
            exact absurd hx (hc0.2.2.1 ws rfl)
        rw [events, hw]
        simpa using ih' st hst
      | largeNewline =>
        cases st with
        | nil => rw [events]; simpa using ih' [] hst
        | cons n st =>
          rw [events, hst n (List.mem_cons_self ..)]
          simpa using ih' (n :: st) hst
      | start l i =>
        have hl : l = false := by
          cases l
          · rfl
          · exact absurd rfl (hc0.2.1 i)
        rw [events]
        have := ih' ((l || largeInside 0 cs, i) :: st) (by
          intro n hn
          rcases List.mem_cons.mp hn with rfl | hn
          · simp only [hl, Bool.false_or]
            exact hin cs 0 (fun x hx => (hc x (List.mem_cons_of_mem _ hx)).2.1)
          · exact hst n hn)
        cases i
        · simpa using this
        · simpa using this
      | finish =>
        cases st with
        | nil => rw [events]; exact ih' [] hst
        | cons n st =>
          rw [events]
          have := ih' st (fun x hx => hst x (List.mem_cons_of_mem _ hx))
          cases n.2
          · simpa using this
          · simpa using this
  have hexp : ∀ (es : List Ev) (prev : Option Sticky) (ls : List Level), Ev.brk ∉ es →
      (∀ t s, Ev.tok t s ∈ es → '\n' ∉ t) → '\n' ∉ expected prev false ls es := by
    intro es
    induction es with
    | nil => intro prev ls _ _; simp [expected]
    | cons e es ih =>
      intro prev ls hb ht
      have hb' : Ev.brk ∉ es := fun hh => hb (List.mem_cons_of_mem _ hh)
      have ht' : ∀ t s, Ev.tok t s ∈ es → '\n' ∉ t := fun t s hh => ht t s (List.mem_cons_of_mem _ hh)
      cases e with
      | tok t s =>
        have h1 := ih (some s) (withTok ls) hb' ht'
        have h2 := ht t s (List.mem_cons_self ..)
        simp only [expected, List.mem_append, not_or]
        refine ⟨⟨?_, h2⟩, h1⟩
        cases prev with
        | none => simp
        | some p => simp only [separator]; split <;> (try split) <;> simp_all
      | brk => exact absurd (List.mem_cons_self ..) hb
      | enter => exact ih prev _ hb' ht'
      | leave => exact ih prev _ hb' ht'
  have := hev calls [] (by simp) hs
  simp only [expectedText, hroot]
  exact hexp _ _ _ this.1 this.2

/-! ## Examples -/

def exCalls : List Call :=
  [.start true true, .token "let".toList .none, .token "x".toList .none, .start false true,
    .token "=".toList .none, .newline, .token "f".toList .none, .token "(".toList .both,
    .token "1".toList .none, .token ",".toList .prev, .largeNewline, .token "2".toList .none,
    .token ")".toList .prev, .finish, .token ";".toList .prev, .newline, .newline, .finish, .finish,
    .token "end".toList .none, .whitespace " \n ".toList]

/-- A large node around a small one, line breaks, indentation, stickiness, doubled and surplus calls. -/
example : layout exCalls = some "let x =\n    f(1, 2);\nend\n".toList := by
  rw [layout_as_specified _ (by decide)]; decide +kernel

example : expectedText exCalls = "let x =\n    f(1, 2);\nend\n".toList := by decide +kernel

example : exCalls.length < 2 ^ 32 := by decide

/-- A large line break counts because of a large node further in, started later. -/
example : layout [.start false true, .token ['a'] .none, .largeNewline, .token ['b'] .none,
    .start true false, .token ['c'] .none, .finish, .finish] =
    some "a\n    b c".toList := by
  rw [layout_as_specified _ (by decide)]; decide +kernel

/-- Without one, the text stays on one line (`one_line`). -/
example : layout [.start false true, .token ['a'] .none, .largeNewline, .token ['b'] .none,
    .start false false, .token ['c'] .none, .finish, .finish] =
    some "a b c".toList := by
  rw [layout_as_specified _ (by decide)]; decide +kernel

end Tic.Format
