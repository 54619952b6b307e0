import Verif.Format
/-!
# What the layout builder is supposed to write

The specification reads the list of method calls from left to right, without any tree.
-/
namespace Tic.Format

/-- Is a node with `large: true` started among the calls, before the node that is `d` levels further
out than the innermost one open now is finished? -/
def largeInside : Nat → List Call → Bool
  | _, [] => false
  | d, .start l _ :: cs => l || largeInside (d + 1) cs
  | 0, .finish :: _ => false
  | d + 1, .finish :: cs => largeInside d cs
  | d, _ :: cs => largeInside d cs

/-- Is any node at all started with `large: true`? -/
def anyLargeCall (cs : List Call) : Bool :=
  cs.any fun
    | .start l _ => l
    | _ => false

/-- What the calls come to: tokens, line breaks that are asked for, and where indentation starts and
stops. -/
inductive Ev
  | tok (text : List Char) (s : Sticky)
  | brk
  | enter
  | leave
deriving DecidableEq, Repr

/-- The events of a list of calls.  The list of pairs is the open nodes, innermost first: is it large
(it or a node inside it was started as large), and does it indent.  A large line break counts when the
innermost open node is large; with no open node, when there is any large node.  A surplus `finish` does
nothing, a missing one is supplied at the end. -/
def events (rootLarge : Bool) : List (Bool × Bool) → List Call → List Ev
  | st, [] => st.flatMap fun n => if n.2 then [.leave] else []
  | st, .token t s :: cs => .tok t s :: events rootLarge st cs
  | st, .newline :: cs => .brk :: events rootLarge st cs
  | st, .whitespace ws :: cs =>
    (if ws.any (· == '\n') then [.brk] else []) ++ events rootLarge st cs
  | [], .largeNewline :: cs => (if rootLarge then [.brk] else []) ++ events rootLarge [] cs
  | n :: st, .largeNewline :: cs => (if n.1 then [.brk] else []) ++ events rootLarge (n :: st) cs
  | st, .start l i :: cs =>
    (if i then [.enter] else []) ++ events rootLarge ((l || largeInside 0 cs, i) :: st) cs
  | [], .finish :: cs => events rootLarge [] cs
  | n :: st, .finish :: cs => (if n.2 then [.leave] else []) ++ events rootLarge st cs

/-- An open indenting node: its level, whether a token was written directly in it, whether a line was
broken directly in it. -/
structure Level where
  level : Nat
  tok : Bool
  nl : Bool
deriving DecidableEq, Repr

/-- The level of a new line: that of the innermost open indenting node that already has a token directly
in it; 0 when there is none. -/
def lineLevel (ls : List Level) : Nat :=
  match ls.find? (·.tok) with
  | some l => l.level
  | none => 0

/-- A node opened inside another is one level deeper when a line was broken directly in the outer one. -/
def innerLevel : List Level → Level
  | [] => ⟨1, false, false⟩
  | l :: _ => ⟨l.level + (if l.nl then 1 else 0), false, false⟩

def withTok : List Level → List Level
  | [] => []
  | l :: ls => { l with tok := true } :: ls

def withNl : List Level → List Level
  | [] => []
  | l :: ls => { l with nl := true } :: ls

/-- What separates two neighbouring tokens. -/
def separator (prev cur : Sticky) (broken : Bool) (level : Nat) : List Char :=
  if broken then '\n' :: List.replicate (4 * level) ' '
  else if prev.toNext || cur.toPrev then [] else [' ']

/-- The text.  `prev`: the last token's stickiness, `none` before the first one; `broken`: a line break
was asked for since; `ls`: the open indenting nodes (the text as a whole is not one of them and has
level 0, and nodes opened directly in it have level 1). -/
def expected (prev : Option Sticky) (broken : Bool) (ls : List Level) : List Ev → List Char
  | [] => if prev.isSome && broken then ['\n'] else []
  | .tok t s :: es =>
    (match prev with
      | none => []
      | some p => separator p s broken (lineLevel ls)) ++
      t ++ expected (some s) false (withTok ls) es
  | .brk :: es =>
    expected prev true (if prev.isSome && !broken then withNl ls else ls) es
  | .enter :: es => expected prev broken (innerLevel ls :: ls) es
  | .leave :: es => expected prev broken ls.tail es

/-- The text of a list of calls. -/
def expectedText (calls : List Call) : List Char :=
  expected none false [] (events (anyLargeCall calls) [] calls)

end Tic.Format
