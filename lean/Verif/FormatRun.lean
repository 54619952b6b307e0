import Verif.FormatEvents
/-! The events are written as the specification says. -/
namespace Tic.Format

/-- The raw builder's stack holds the open indenting nodes, and the root below them. -/
def toStack (ls : List Level) : List IndentNode :=
  ls.map (fun l => ⟨l.level, l.tok, l.nl⟩) ++ [⟨0, true, true⟩]

/-- The raw builder's state, in the specification's terms; `base` is the text without the line feed of a
pending line break. -/
def rawOf (base : List Char) (prev : Option Sticky) (broken : Bool) (ls : List Level) : Raw :=
  match prev with
  | none => ⟨base, toStack ls, true, false, false⟩
  | some p => ⟨base ++ (if broken then ['\n'] else []), toStack ls, broken, broken,
      !broken && !p.toNext⟩

/-- No open node is deeper than the number of nodes around it. -/
def Shallow : List Level → Prop
  | [] => True
  | l :: ls => l.level ≤ ls.length + 1 ∧ Shallow ls

/-- Every `leave` has its `enter`. -/
def Bal : Nat → List Ev → Prop
  | _, [] => True
  | n, .enter :: es => Bal (n + 1) es
  | 0, .leave :: _ => False
  | n + 1, .leave :: es => Bal n es
  | n, _ :: es => Bal n es

def enters : List Ev → Nat
  | [] => 0
  | .enter :: es => enters es + 1
  | _ :: es => enters es

theorem find_toStack : ∀ ls : List Level,
    ∃ n, (toStack ls).find? (·.hasTokens) = some n ∧ n.indent = lineLevel ls
  | [] => ⟨_, rfl, rfl⟩
  | l :: ls => by
    obtain ⟨lv, tk, nl⟩ := l
    obtain ⟨n, h1, h2⟩ := find_toStack ls
    cases tk
    · refine ⟨n, ?_, ?_⟩
      · simpa [toStack] using h1
      · simpa [lineLevel] using h2
    · exact ⟨⟨lv, true, nl⟩, by simp [toStack], by simp [lineLevel]⟩

theorem tok_toStack : ∀ ls : List Level, ∃ top rest, toStack ls = top :: rest ∧
    ({ top with hasTokens := true } : IndentNode) :: rest = toStack (withTok ls)
  | [] => ⟨_, _, rfl, rfl⟩
  | l :: ls => ⟨_, _, rfl, rfl⟩

theorem nl_toStack : ∀ ls : List Level, ∃ top rest, toStack ls = top :: rest ∧
    ({ top with hasNewline := true } : IndentNode) :: rest = toStack (withNl ls)
  | [] => ⟨_, _, rfl, rfl⟩
  | l :: ls => ⟨_, _, rfl, rfl⟩

theorem addToken_rawOf (base : List Char) (prev : Option Sticky) (broken : Bool) (ls : List Level)
    (t : List Char) (s : Sticky) :
    addToken (rawOf base prev broken ls) t s =
      some (rawOf (base ++ (match prev with
        | none => []
        | some p => separator p s broken (lineLevel ls)) ++ t) (some s) false (withTok ls)) := by
  obtain ⟨n, h1, h2⟩ := find_toStack ls
  obtain ⟨top, rest, h3, h4⟩ := tok_toStack ls
  cases prev with
  | none => simp [rawOf, addToken, h3, ← h4]
  | some p =>
    cases broken
    · cases hp : p.toNext <;> cases hs : s.toPrev <;>
        simp [rawOf, addToken, h3, ← h4, separator, hp, hs]
    · rw [h3] at h1
      simp [rawOf, addToken, h3, ← h4, h1, h2, separator]

theorem addNewline_rawOf (base : List Char) (prev : Option Sticky) (broken : Bool) (ls : List Level) :
    addNewline (rawOf base prev broken ls) =
      some (rawOf base prev true (if prev.isSome && !broken then withNl ls else ls)) := by
  obtain ⟨top, rest, h3, h4⟩ := nl_toStack ls
  cases prev with
  | none => simp [rawOf, addNewline]
  | some p =>
    cases broken
    · simp [rawOf, addNewline, h3, ← h4]
    · simp [rawOf, addNewline]

theorem Shallow.top {ls : List Level} (h : Shallow ls) : (innerLevel ls).level ≤ ls.length + 1 := by
  cases ls with
  | nil => simp [innerLevel]
  | cons l ls =>
    have := h.1
    simp only [innerLevel, List.length_cons]
    split <;> omega

theorem pushLevel_rawOf (base : List Char) (prev : Option Sticky) (broken : Bool) (ls : List Level)
    (h : Shallow ls) (hl : ls.length + 1 < 2 ^ 32) :
    pushLevel (rawOf base prev broken ls) = some (rawOf base prev broken (innerLevel ls :: ls)) := by
  have ht := h.top
  have key : ∀ (a b c : Bool) (r : List Char), pushLevel ⟨r, toStack ls, a, b, c⟩ =
      some ⟨r, toStack (innerLevel ls :: ls), a, b, c⟩ := by
    intro a b c r
    cases ls with
    | nil => rfl
    | cons l ls =>
      have : (innerLevel (l :: ls)).level < 2 ^ 32 := Nat.lt_of_le_of_lt ht hl
      simp only [innerLevel] at this
      simp only [pushLevel, toStack, List.map_cons, List.cons_append, innerLevel, this, if_true]
  cases prev with
  | none => simp only [rawOf, key]
  | some p => simp only [rawOf, key]

theorem popLevel_rawOf (base : List Char) (prev : Option Sticky) (broken : Bool) (l : Level)
    (ls : List Level) :
    popLevel (rawOf base prev broken (l :: ls)) = rawOf base prev broken ls := by
  cases prev <;> simp [rawOf, popLevel, toStack]

theorem shallow_withTok {ls : List Level} (h : Shallow ls) : Shallow (withTok ls) := by
  cases ls with
  | nil => exact h
  | cons l ls => exact h

theorem shallow_withNl {ls : List Level} (h : Shallow ls) : Shallow (withNl ls) := by
  cases ls with
  | nil => exact h
  | cons l ls => exact h

theorem withTok_len (ls : List Level) : (withTok ls).length = ls.length := by cases ls <;> rfl
theorem withNl_len (ls : List Level) : (withNl ls).length = ls.length := by cases ls <;> rfl

theorem runEvs_expected : ∀ (es : List Ev) (base : List Char) (prev : Option Sticky) (broken : Bool)
    (ls : List Level), Shallow ls → Bal ls.length es → ls.length + enters es < 2 ^ 32 →
    ∃ r, runEvs es (rawOf base prev broken ls) = some r ∧
      r.result = base ++ expected prev broken ls es := by
  intro es
  induction es with
  | nil =>
    intro base prev broken ls _ _ _
    refine ⟨_, rfl, ?_⟩
    cases prev with
    | none => simp [rawOf, expected]
    | some p => cases broken <;> simp [rawOf, expected]
  | cons e es ih =>
    intro base prev broken ls hs hb hn
    cases e with
    | tok t s =>
      simp only [runEvs, addToken_rawOf, Option.bind_some]
      obtain ⟨r, h1, h2⟩ := ih (base ++ (match prev with
        | none => []
        | some p => separator p s broken (lineLevel ls)) ++ t) (some s) false (withTok ls)
        (shallow_withTok hs) (by rw [withTok_len]; simpa [Bal] using hb)
        (by rw [withTok_len]; simpa [enters] using hn)
      refine ⟨r, h1, ?_⟩
      rw [h2]
      cases prev <;> simp [expected]
    | brk =>
      simp only [runEvs, addNewline_rawOf, Option.bind_some]
      have hb' : Bal ls.length es := by simpa [Bal] using hb
      have hn' : ls.length + enters es < 2 ^ 32 := by simpa [enters] using hn
      obtain ⟨r, h1, h2⟩ := ih base prev true (if prev.isSome && !broken then withNl ls else ls)
        (by split
            · exact shallow_withNl hs
            · exact hs)
        (by split
            · rw [withNl_len]; exact hb'
            · exact hb')
        (by split
            · rw [withNl_len]; exact hn'
            · exact hn')
      exact ⟨r, h1, by rw [h2]; simp only [expected]⟩
    | enter =>
      simp only [enters] at hn
      simp only [runEvs]
      rw [pushLevel_rawOf base prev broken ls hs (by omega)]
      simp only [Option.bind_some]
      obtain ⟨r, h1, h2⟩ := ih base prev broken (innerLevel ls :: ls) ⟨hs.top, hs⟩
        (by simpa [Bal] using hb) (by simp only [List.length_cons]; omega)
      exact ⟨r, h1, by rw [h2]; simp only [expected]⟩
    | leave =>
      cases ls with
      | nil => simp [Bal] at hb
      | cons l ls =>
        simp only [runEvs, popLevel_rawOf]
        obtain ⟨r, h1, h2⟩ := ih base prev broken ls hs.2 (by simpa [Bal] using hb)
          (by simp only [List.length_cons, enters] at hn; omega)
        exact ⟨r, h1, by rw [h2]; simp only [expected, List.tail_cons]⟩

/-! ### The events of a list of calls are balanced -/

def indenting (st : List (Bool × Bool)) : Nat := (st.filter (·.2)).length

theorem bal_leaves : ∀ st : List (Bool × Bool),
    Bal (indenting st) (st.flatMap fun n => if n.2 then [.leave] else [])
  | [] => by simp [Bal]
  | (a, b) :: st => by
    have ih := bal_leaves st
    cases b
    · simpa [indenting] using ih
    · simpa [indenting, Bal] using ih

theorem bal_brkIf (b : Bool) (n : Nat) (es : List Ev) (h : Bal n es) :
    Bal n ((if b then [.brk] else []) ++ es) := by
  cases b
  · simpa using h
  · simpa [Bal] using h

theorem bal_events (R : Bool) : ∀ (cs : List Call) (st : List (Bool × Bool)),
    Bal (indenting st) (events R st cs) := by
  intro cs
  induction cs with
  | nil => intro st; rw [events]; exact bal_leaves st
  | cons c cs ih =>
    intro st
    cases c with
    | token t s => rw [events]; simpa [Bal] using ih st
    | newline => rw [events]; simpa [Bal] using ih st
    | whitespace ws => rw [events]; exact bal_brkIf _ _ _ (ih st)
    | largeNewline =>
      cases st with
      | nil => rw [events]; exact bal_brkIf _ _ _ (ih [])
      | cons n st => rw [events]; exact bal_brkIf _ _ _ (ih (n :: st))
    | start l i =>
      rw [events]
      have := ih ((l || largeInside 0 cs, i) :: st)
      cases i
      · simpa [indenting] using this
      · simpa [indenting, Bal] using this
    | finish =>
      cases st with
      | nil => rw [events]; exact ih []
      | cons n st =>
        obtain ⟨a, b⟩ := n
        rw [events]
        have := ih st
        cases b
        · simpa [indenting] using this
        · simpa [indenting, Bal] using this

theorem enters_append (a b : List Ev) : enters (a ++ b) = enters a + enters b := by
  induction a with
  | nil => simp [enters]
  | cons e a ih => cases e <;> simp [enters, ih] <;> omega

theorem enters_brkIf (b : Bool) : enters (if b then [.brk] else []) = 0 := by cases b <;> rfl
theorem enters_leaveIf (b : Bool) : enters (if b then [.leave] else []) = 0 := by cases b <;> rfl

theorem enters_leaves : ∀ st : List (Bool × Bool),
    enters (st.flatMap fun n => if n.2 then [.leave] else []) = 0
  | [] => rfl
  | n :: st => by rw [List.flatMap_cons, enters_append, enters_leaveIf, enters_leaves st]

theorem enters_le (R : Bool) : ∀ (cs : List Call) (st : List (Bool × Bool)),
    enters (events R st cs) ≤ cs.length := by
  intro cs
  induction cs with
  | nil => intro st; rw [events, enters_leaves]; exact Nat.zero_le _
  | cons c cs ih =>
    intro st
    rw [List.length_cons]
    cases c with
    | token t s => rw [events]; simp only [enters]; exact Nat.le_succ_of_le (ih st)
    | newline => rw [events]; simp only [enters]; exact Nat.le_succ_of_le (ih st)
    | whitespace ws => rw [events, enters_append, enters_brkIf]; have := ih st; omega
    | largeNewline =>
      cases st with
      | nil => rw [events, enters_append, enters_brkIf]; have := ih []; omega
      | cons n st => rw [events, enters_append, enters_brkIf]; have := ih (n :: st); omega
    | start l i =>
      rw [events, enters_append]
      have := ih ((l || largeInside 0 cs, i) :: st)
      have : enters (if i then [.enter] else []) ≤ 1 := by cases i <;> simp [enters]
      omega
    | finish =>
      cases st with
      | nil => rw [events]; exact Nat.le_succ_of_le (ih [])
      | cons n st => rw [events, enters_append, enters_leaveIf]; have := ih st; omega

theorem layout_expected (calls : List Call) (h : calls.length < 2 ^ 32) :
    layout calls = some (expectedText calls) := by
  obtain ⟨r, h1, h2⟩ := runEvs_expected (events (anyLargeCall calls) [] calls) [] none false []
    trivial (bal_events _ calls []) (by have := enters_le (anyLargeCall calls) calls []; simp only [List.length_nil]; omega)
  unfold layout finish
  simp only [markList_big, formatList_evs, calls_events]
  have : rawOf [] none false [] = Raw.new := rfl
  rw [this] at h1
  rw [h1]
  simp [h2, expectedText]

end Tic.Format
