/-!
# The layout builder: `/repo/formatter/src/lib.rs`

`FormatBuilder` collects tokens, line breaks and (nested) nodes; `finish` turns them into text.
Text is `List Char`.  A panic (failed `assert!`, `unwrap` on nothing, `u32` overflow) is `none`.
Only the recursion depth of the Rust functions (the machine's stack) is not modelled.
-/
namespace Tic.Format

/-- `/repo/formatter/src/lib.rs:1-7` `Sticky`. -/
inductive Sticky
  | both | prev | next | none
deriving DecidableEq, Repr

/-- `/repo/formatter/src/lib.rs:9-12` `Sticky::to_prev`. -/
def Sticky.toPrev : Sticky → Bool
  | .both | .prev => true
  | _ => false

/-- `/repo/formatter/src/lib.rs:14-16` `Sticky::to_next`. -/
def Sticky.toNext : Sticky → Bool
  | .both | .next => true
  | _ => false

/-- `/repo/formatter/src/lib.rs:105-109,149-154` `Element`, with `FormatNode` (its `Node`'s `large` and
`indents`, `finished`, `children`) written inline in the `node` case. -/
inductive Elem
  | token (text : List Char) (s : Sticky)
  | node (large indents finished : Bool) (children : List Elem)
  | newline
  | largeNewline

/-- `/repo/formatter/src/lib.rs:42-56` `current_node` followed by `children.push`: the element goes to
the deepest node reached by following unfinished last children. -/
def pushAt : List Elem → Elem → List Elem
  | [], e => [e]
  | [.node l i false cs], e => [.node l i false (pushAt cs e)]
  | [x], e => [x, e]
  | x :: y :: ys, e => x :: pushAt (y :: ys) e

/-- `/repo/formatter/src/lib.rs:93-95` `finish_node`: the deepest unfinished node is marked as
finished.  When no node is open the root's own mark is set, which nothing ever reads. -/
def finishAt : List Elem → List Elem
  | [] => []
  | [.node l i false cs] =>
    match cs.getLast? with
    | some (.node _ _ false _) => [.node l i false (finishAt cs)]
    | _ => [.node l i true cs]
  | [x] => [x]
  | x :: y :: ys => x :: finishAt (y :: ys)

/-- The builder's public methods, `/repo/formatter/src/lib.rs:58-95`. -/
inductive Call
  /-- `add_sticky_token` (`add_token` is the same with `Sticky::None`) -/
  | token (text : List Char) (s : Sticky)
  /-- `add_newline` -/
  | newline
  /-- `add_large_newline` -/
  | largeNewline
  /-- `add_whitespace` -/
  | whitespace (ws : List Char)
  /-- `start_node` -/
  | start (large indents : Bool)
  /-- `finish_node` -/
  | finish
deriving DecidableEq, Repr

/-- One method call on the builder; the state is the root's children.
`/repo/formatter/src/lib.rs:58-95`; `add_whitespace` (76-83) adds one line break if there is a
line feed among the characters. -/
def applyCall (root : List Elem) : Call → List Elem
  | .token t s => pushAt root (.token t s)
  | .newline => pushAt root .newline
  | .largeNewline => pushAt root .largeNewline
  | .whitespace ws => if ws.any (· == '\n') then pushAt root .newline else root
  | .start l i => pushAt root (.node l i false [])
  | .finish => finishAt root

/-- The `large` mark of a child that is a node; `/repo/formatter/src/lib.rs:113-116`. -/
def Elem.isLarge : Elem → Bool
  | .node l _ _ _ => l
  | _ => false

mutual
/-- `/repo/formatter/src/lib.rs:112-119` `mark_large` on one child: a node becomes large when one of
its nodes is. -/
def markElem : Elem → Elem
  | .node l i f cs => .node (l || (markList cs).2) i f (markList cs).1
  | e => e
/-- `/repo/formatter/src/lib.rs:112-119` `mark_large`'s loop: the marked children, and whether some
child node is large after marking. -/
def markList : List Elem → List Elem × Bool
  | [] => ([], false)
  | e :: es =>
    (markElem e :: (markList es).1, (markElem e).isLarge || (markList es).2)
end

/-- `/repo/formatter/src/lib.rs:156-161` `IndentNode`. -/
structure IndentNode where
  indent : Nat
  hasTokens : Bool
  hasNewline : Bool
deriving DecidableEq, Repr

/-- `/repo/formatter/src/lib.rs:163-169` `RawBuilder`; the top of `node_stack` is the head. -/
structure Raw where
  result : List Char
  stack : List IndentNode
  hasNewline : Bool
  needsIndent : Bool
  needsSpace : Bool
deriving DecidableEq, Repr

/-- `/repo/formatter/src/lib.rs:172-180` `RawBuilder::new`. -/
def Raw.new : Raw := ⟨[], [⟨0, true, true⟩], true, false, false⟩

/-- `/repo/formatter/src/lib.rs:182-214` `RawBuilder::add_token`. -/
def addToken (r : Raw) (text : List Char) (s : Sticky) : Option Raw :=
  if r.needsSpace && r.needsIndent then none
  else
    let sp := if r.needsSpace && !s.toPrev then [' '] else []
    let ind : Option (List Char) :=
      if r.needsIndent then
        match r.stack.find? (·.hasTokens) with
        | some n => some (List.replicate (4 * n.indent) ' ')
        | none => none
      else some []
    match ind, r.stack with
    | some pad, top :: rest =>
      some ⟨r.result ++ sp ++ pad ++ text, { top with hasTokens := true } :: rest,
        false, false, !s.toNext⟩
    | _, _ => none

/-- `/repo/formatter/src/lib.rs:216-224` `RawBuilder::add_newline`. -/
def addNewline (r : Raw) : Option Raw :=
  if r.hasNewline then some r
  else
    match r.stack with
    | top :: rest =>
      some ⟨r.result ++ ['\n'], { top with hasNewline := true } :: rest, true, true, false⟩
    | [] => none

/-- `/repo/formatter/src/lib.rs:226-233` the first half of `RawBuilder::node`: push a level.  The
level is a `u32`. -/
def pushLevel (r : Raw) : Option Raw :=
  match r.stack with
  | top :: rest =>
    let indent := top.indent + (if top.hasNewline then 1 else 0)
    if indent < 2 ^ 32 then some { r with stack := ⟨indent, false, false⟩ :: top :: rest } else none
  | [] => none

/-- `/repo/formatter/src/lib.rs:237` `RawBuilder::node`'s last step: pop the level. -/
def popLevel (r : Raw) : Raw := { r with stack := r.stack.tail }

mutual
/-- `/repo/formatter/src/lib.rs:121-146` `FormatNode::format`'s loop body; `big` is the `large` mark
of the node being written. -/
def formatElem (big : Bool) : Elem → Raw → Option Raw
  | .token t s, r => addToken r t s
  | .node l i _ cs, r =>
    if i then (pushLevel r).bind fun r => (formatList l cs r).map popLevel
    else formatList l cs r
  | .newline, r => addNewline r
  | .largeNewline, r => if big then addNewline r else some r
/-- `/repo/formatter/src/lib.rs:121-146` `FormatNode::format`. -/
def formatList (big : Bool) : List Elem → Raw → Option Raw
  | [], r => some r
  | e :: es, r => (formatElem big e r).bind fun r => formatList big es r
end

/-- `/repo/formatter/src/lib.rs:97-102` `FormatBuilder::finish`, on the root's children. -/
def finish (root : List Elem) : Option (List Char) :=
  let m := markList root
  (formatList m.2 m.1 Raw.new).map (·.result)

/-- A whole use of the builder: `FormatBuilder::new`, the calls in order, `finish`. -/
def layout (calls : List Call) : Option (List Char) := finish (calls.foldl applyCall [])

end Tic.Format
