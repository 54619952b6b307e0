/-
The parser: `ticc/src/compiler/parser.rs`, `parser/{item,expr,type_}.rs`, `ticc-syntax/src/lib.rs`
(`SyntaxBuilder`), and the driver loop of `ticc/src/lib.rs`.
-/
namespace Tic.Parser

/-- `TokenKind`, `ticc-syntax/src/lib.rs:46-92`. -/
inductive TokenKind
  | import_ | from_ | type | equals | pipe | comma | dot | int | stringTy | bool | arrow | rec_
  | leftParen | rightParen | export_ | let_ | colon | semicolon | match_ | with_ | end_ | if_ | then_ | else_
  | true_ | false_ | number | string | ident | hole | backslash | fold | plus | minus | star | slash | percent
  | less | lessEq | greater | greaterEq | eqEq | notEq | argPipe | error
  deriving DecidableEq, Repr

/-- `TriviaKind`, `ticc-syntax/src/lib.rs:151-155`. -/
inductive TriviaKind
  | space | newline | comment
  deriving DecidableEq, Repr

/-- `lexer::TokenKind` after `classify_token`, `parser.rs:281-334`. -/
inductive LexKind
  | token (t : TokenKind)
  | trivia (t : TriviaKind)
  deriving DecidableEq, Repr

/-- `lexer::Token`, `lexer.rs:108-112`; it carries its text instead of its span. -/
structure Tok where
  kind : LexKind
  text : List UInt8
  deriving DecidableEq, Repr

/-- The lexer, `lexer.rs:114-138`: `next` looks at the rest of the input and gives the kind and
length of the first token.  Which kind and length `logos` picks is a parameter: the theorems hold
for every choice (the length is forced to be at least one byte). -/
structure LexRules where
  next : List UInt8 → LexKind × Nat

/-- `lex`: the sequence of tokens. -/
def lex (r : LexRules) (src : List UInt8) : List Tok :=
  match src with
  | [] => []
  | b :: bs =>
    let kn := r.next (b :: bs)
    let n := kn.2 - 1
    { kind := kn.1, text := b :: bs.take n } :: lex r (bs.drop n)
termination_by src.length
decreasing_by simp [List.length_drop]; omega

/-- `SyntaxKind`, `ticc-syntax/src/lib.rs:7-44`. -/
inductive SyntaxKind
  | importItem | exposedList | typeItem | valueItem | typeParams | typeCase | intType | boolType | stringType | fnType
  | namedType | parenType | errType | recField | typeField | nameExpr | namespacedNameExpr | applyExpr | binaryExpr
  | letExpr | matchExpr | ifExpr | boolExpr | numberExpr | stringExpr | lambdaExpr | parenExpr | holeExpr | matchCase
  | matchVars | binaryOp | name | error | root
  deriving DecidableEq, Repr

/-- `Event`, `parser.rs:43-52`.  A diagnostic is its span; its text is not modelled. -/
inductive Event
  | startNode (kind : SyntaxKind) (forwardParent : Option Nat)
  | error (start stop : Nat)
  | addToken (t : TokenKind)
  | finishNode
  | placeholder
  deriving DecidableEq, Repr

/-- `ParseHint`, `parser.rs:71-76`. -/
inductive ParseHint
  | item | type | expr | operator
  deriving DecidableEq, Repr

/-- `starts_with_token`, `parser.rs:410-466`. -/
def ParseHint.startsWith : ParseHint → TokenKind → Bool
  | .item, t => [.type, .export_, .let_].contains t
  | .type, t => [.int, .bool, .stringTy, .rec_, .leftParen, .ident].contains t
  | .expr, t => [.let_, .match_, .if_, .true_, .false_, .leftParen, .backslash, .ident, .hole, .number, .string].contains t
  | .operator, t => [.plus, .minus, .star, .slash, .percent, .less, .lessEq, .greater, .greaterEq, .eqEq, .notEq, .argPipe].contains t

/-- `Parser`, `parser.rs:54-62`.  `off` is where the next token starts in the
source file (`t.span.from_origin(start_pos)`), `pos` is `current_pos`. -/
structure PState where
  sol : Bool
  toks : List Tok
  off : Nat
  pos : Nat
  events : List Event
  hints : List ParseHint
  expected : List TokenKind

/-- Parser actions; `none` is a panic (or running out of the recursion bound, which the theorems
exclude along with the panics). -/
abbrev P (α : Type) := StateT PState Option α

def panic {α} : P α := fun _ => none

/-- `hint`, `parser.rs:95-97`. -/
def hint (h : ParseHint) : P Unit := fun s => some ((), { s with hints := s.hints ++ [h] })

/-- The loop of `peek`, `parser.rs:99-110`: drop trivia. -/
def skipTrivia : List Tok → Nat → Bool → List Tok × Nat × Bool
  | [], off, sol => ([], off, sol)
  | t :: ts, off, sol =>
    match t.kind with
    | .trivia k => skipTrivia ts (off + t.text.length) (k == .newline)
    | .token _ => (t :: ts, off, sol)

/-- `peek`, `parser.rs:99-110`. -/
def peek : P (Option TokenKind) := fun s =>
  let r := skipTrivia s.toks s.off s.sol
  let s' := { s with toks := r.1, off := r.2.1, sol := r.2.2 }
  match r.1 with
  | { kind := .token k, .. } :: _ => some (some k, s')
  | _ => some (none, s')

/-- `at_eof`, `parser.rs:132-134`. -/
def atEof : P Bool := do return (← peek).isNone

/-- `bump_any`, `parser.rs:112-123`. -/
def bumpAny : P Unit := do
  if ← atEof then panic
  fun s =>
    match s.toks with
    | { kind := .token k, text } :: ts =>
      some ((), { sol := false, toks := ts, off := s.off + text.length, pos := s.off + text.length,
                  events := s.events ++ [.addToken k], hints := [], expected := [] })
    | _ => none

/-- `at`, `parser.rs:125-130`. -/
def at_ (t : TokenKind) : P Bool := do
  modify fun s => if t ≠ .error then { s with expected := s.expected ++ [t] } else s
  return (← peek) == some t

/-- `bump`, `parser.rs:136-139`. -/
def bump (t : TokenKind) : P Unit := do
  if ← at_ t then bumpAny else panic

/-- `start`, `parser.rs:147-152`; a marker is its position. -/
def start : P Nat := fun s => some (s.events.length, { s with events := s.events ++ [.placeholder] })

/-- `Marker::complete`, `parser.rs:235-247`. -/
def complete (m : Nat) (k : SyntaxKind) : P Nat := fun s =>
  match s.events[m]? with
  | some .placeholder => some (m, { s with events := s.events.set m (.startNode k none) ++ [.finishNode] })
  | _ => none

/-- `CompletedMarker::precede`, `parser.rs:259-269`. -/
def precede (m : Nat) : P Nat := do
  let p ← start
  fun s =>
    match s.events[m]? with
    | some (.startNode k none) => some (p, { s with events := s.events.set m (.startNode k (some p)) })
    | _ => none

/-- `bump_name`, `parser.rs:141-145`. -/
def bumpName : P Unit := do
  let m ← start
  bump .ident
  let _ ← complete m .name

/-- `emit_error`, `parser.rs:174-219`. -/
def emitError : P Unit := do
  if (← peek) == some .error then pure ()
  else
    -- sorting and removing duplicates are not modelled
    modify fun s => { s with expected := s.expected.filter fun t => s.hints.all fun h => !h.startsWith t }
    let s ← get
    if s.hints.isEmpty && s.expected.isEmpty then panic
  let _ ← peek
  modify fun s =>
    let span := match s.toks with
      | t :: _ => (s.off, s.off + t.text.length)
      | [] => (s.pos, s.pos)
    { s with events := s.events ++ [.error span.1 span.2] }
  if ← at_ .error then bump .error

/-- `expect`, `parser.rs:154-160`. -/
def expect (t : TokenKind) : P Unit := do
  if ← at_ t then bump t else emitError

/-- `expect_name`, `parser.rs:162-168`. -/
def expectName : P Unit := do
  if ← at_ .ident then bumpName else emitError

/-- `error_recover`, `parser.rs:221-230`. -/
def errorRecover (h : ParseHint) : P Unit := do
  emitError
  match ← peek with
  | some tok =>
    if !h.startsWith tok then
      let m ← start
      bumpAny
      let _ ← complete m .error
  | none => pure ()

/-- A loop: `body` either goes on or ends the loop.  `n` bounds the number of rounds. -/
def loopM {σ β : Type} (body : σ → P (σ ⊕ β)) : Nat → σ → P β
  | 0, _ => panic
  | n + 1, a => do
    match ← body a with
    | .inl a => loopM body n a
    | .inr b => pure b

/-- `while cond { body }`. -/
def whileM (n : Nat) (cond : P Bool) (body : P Unit) : P Unit :=
  loopM (fun _ => do if ← cond then body; pure (.inl ()) else pure (.inr ())) n ()

/-- `error_recover_item`, `parser.rs:212-230`. -/
def errorRecoverItem (n : Nat) : P Unit := do
  emitError
  let m ← start
  loopM (fun _ => do
    match ← peek with
    | some tok =>
      let s ← get
      let recover := match tok with
        | .export_ | .type => true
        | .let_ => s.sol
        | _ => false
      if recover then pure (.inr ()) else
        bump tok
        pure (.inl ())
    | none => pure (.inr ())) n ()
  let _ ← complete m .error

mutual
/-- `type_`, `type_.rs:3-20`. -/
def type_ : Nat → P Unit
  | 0 => panic
  | n + 1 => do
    hint .type
    match ← nonFnType n with
    | none => errorRecover .type
    | some m =>
      if ← at_ .arrow then
        let m ← precede m
        bump .arrow
        type_ n
        let _ ← complete m .fnType
/-- `non_fn_type`, `type_.rs:22-35`. -/
def nonFnType : Nat → P (Option Nat)
  | 0 => panic
  | n + 1 => do
    if ← at_ .ident then
      let m ← start
      bumpName
      if ← at_ .dot then
        bump .dot
        expectName
      whileM n (do return (← atomType n).isSome) (pure ())
      return some (← complete m .namedType)
    else atomType n
/-- `atom_type`, `type_.rs:37-73`. -/
def atomType : Nat → P (Option Nat)
  | 0 => panic
  | n + 1 => do
    hint .type
    if ← at_ .int then
      let m ← start
      bump .int
      return some (← complete m .intType)
    else if ← at_ .bool then
      let m ← start
      bump .bool
      return some (← complete m .boolType)
    else if ← at_ .stringTy then
      let m ← start
      bump .stringTy
      return some (← complete m .stringType)
    else if ← at_ .ident then
      let m ← start
      bumpName
      if ← at_ .dot then
        bump .dot
        expectName
      return some (← complete m .namedType)
    else if ← at_ .leftParen then
      let m ← start
      bump .leftParen
      type_ n
      expect .rightParen
      return some (← complete m .parenType)
    else if ← at_ .rec_ then
      emitError
      let m ← start
      bump .rec_
      return some (← complete m .errType)
    else return none
end

/-- `binding_power`, `expr.rs:143-163`. -/
def bindingPower : TokenKind → Option (Nat × Nat)
  | .plus | .minus => some (7, 8)
  | .star | .slash | .percent => some (9, 10)
  | .less | .lessEq | .greater | .greaterEq | .eqEq | .notEq => some (3, 4)
  | .argPipe => some (1, 2)
  | _ => none

mutual
/-- `expr`, `expr.rs:3-51`. -/
def expr : Nat → P Unit
  | 0 => panic
  | n + 1 => do
    hint .expr
    if ← at_ .let_ then
      let m ← start
      bump .let_
      expectName
      if ← at_ .colon then
        bump .colon
        type_ n
      expect .equals
      expr n
      expect .semicolon
      expr n
      let _ ← complete m .letExpr
    else if ← at_ .match_ then
      let m ← start
      bump .match_
      expr n
      expect .with_
      whileM n (at_ .pipe) (matchCase n)
      expect .end_
      let _ ← complete m .matchExpr
    else if ← at_ .if_ then
      let m ← start
      bump .if_
      expr n
      expect .then_
      expr n
      expect .else_
      expr n
      let _ ← complete m .ifExpr
    else if ← at_ .backslash then
      let m ← start
      bump .backslash
      if ← at_ .fold then bump .fold
      expectName
      expect .arrow
      expr n
      let _ ← complete m .lambdaExpr
    else opExpr n 0
/-- `match_case`, `expr.rs:53-69`. -/
def matchCase : Nat → P Unit
  | 0 => panic
  | n + 1 => do
    let m ← start
    bump .pipe
    expectName
    if ← at_ .dot then
      bump .dot
      expectName
    let v ← start
    whileM n (at_ .ident) bumpName
    let _ ← complete v .matchVars
    expect .arrow
    expr n
    let _ ← complete m .matchCase
/-- `op_expr`, `expr.rs:71-93`. -/
def opExpr : Nat → Nat → P Unit
  | 0, _ => panic
  | n + 1, minPrec => do
    hint .expr
    match ← applyExpr n with
    | none => pure ()
    | some m =>
      hint .operator
      loopM (fun m => do
        match (← peek).bind bindingPower with
        | none => pure (.inr ())
        | some (power, right) =>
          if power < minPrec then pure (.inr ()) else
            let binaryNode ← precede m
            let op ← start
            bumpAny
            let _ ← complete op .binaryOp
            opExpr n right
            let m ← complete binaryNode .binaryExpr
            hint .operator
            pure (.inl m)) n m
/-- `apply_expr`, `expr.rs:95-106`. -/
def applyExpr : Nat → P (Option Nat)
  | 0 => panic
  | n + 1 => do
    match ← atomExpr n with
    | none =>
      emitError
      pure none
    | some m =>
      let m ← loopM (fun m => do
        if (← atomExpr n).isSome then
          let p ← precede m
          let m ← complete p .applyExpr
          pure (.inl m)
        else pure (.inr m)) n m
      pure (some m)
/-- `atom_expr`, `expr.rs:108-141`. -/
def atomExpr : Nat → P (Option Nat)
  | 0 => panic
  | n + 1 => do
    hint .expr
    if ← at_ .leftParen then
      let m ← start
      bump .leftParen
      expr n
      expect .rightParen
      return some (← complete m .parenExpr)
    else if ← (do if ← at_ .true_ then pure true else at_ .false_) then
      let m ← start
      bumpAny
      return some (← complete m .boolExpr)
    else if ← at_ .number then
      let m ← start
      bumpAny
      return some (← complete m .numberExpr)
    else if ← at_ .string then
      let m ← start
      bumpAny
      return some (← complete m .stringExpr)
    else if ← at_ .ident then
      let m ← start
      bumpName
      if ← at_ .dot then
        bump .dot
        expectName
        return some (← complete m .namespacedNameExpr)
      else
        return some (← complete m .nameExpr)
    else if ← at_ .hole then
      let m ← start
      bump .hole
      return some (← complete m .holeExpr)
    else return none
end

/-- `value_item`, `item.rs:45-57`. -/
def valueItem (n : Nat) (m : Nat) : P Unit := do
  expect .let_
  expectName
  if ← at_ .colon then
    bump .colon
    type_ n
  expect .equals
  expr n
  expect .semicolon
  let _ ← complete m .valueItem

/-- `type_params`, `item.rs:75-84`. -/
def typeParams (n : Nat) : P Unit := do
  if !(← at_ .ident) then return ()
  let m ← start
  whileM n (at_ .ident) bumpName
  let _ ← complete m .typeParams

/-- `type_case`, `item.rs:86-105`. -/
def typeCase (n : Nat) (pipeOptional : Bool) : P Unit := do
  let m ← start
  if ← (do if !pipeOptional then pure true else at_ .pipe) then expect .pipe
  expectName
  loopM (fun _ => do
    if ← at_ .rec_ then
      let m ← start
      bump .rec_
      let _ ← complete m .recField
      pure (.inl ())
    else
      match ← atomType n with
      | some m =>
        let p ← precede m
        let _ ← complete p .typeField
        pure (.inl ())
      | none => pure (.inr ())) n ()
  let _ ← complete m .typeCase

/-- `type_item`, `item.rs:59-73`. -/
def typeItem (n : Nat) (m : Nat) : P Unit := do
  bump .type
  expectName
  typeParams n
  expect .equals
  if ← at_ .export_ then bump .export_
  typeCase n true
  whileM n (at_ .pipe) (typeCase n false)
  expect .semicolon
  let _ ← complete m .typeItem

/-- `exposed_list`, `item.rs:107-121`. -/
def exposedList (n : Nat) : P Unit := do
  let m ← start
  bump .leftParen
  loopM (fun _ => do
    if ← at_ .rightParen then pure (.inr ()) else
      expectName
      if !(← at_ .comma) then pure (.inr ()) else
        bump .comma
        pure (.inl ())) n ()
  expect .rightParen
  let _ ← complete m .exposedList

/-- `item`, `item.rs:3-43`. -/
def item (n : Nat) : P Unit := do
  hint .item
  if ← at_ .export_ then
    let m ← start
    bump .export_
    if ← at_ .let_ then valueItem n m
    else if ← at_ .type then typeItem n m
    else
      let _ ← complete m .error
      errorRecoverItem n
  else if ← at_ .let_ then
    let m ← start
    valueItem n m
  else if ← at_ .type then
    let m ← start
    typeItem n m
  else if ← at_ .import_ then
    let m ← start
    bump .import_
    if ← at_ .ident then bumpName
    if ← at_ .leftParen then exposedList n
    expect .from_
    expect .string
    expect .semicolon
    let _ ← complete m .importItem
  else errorRecoverItem n

/-! ### From events to a tree -/

/-- The inner loop of `reorder_forward_parents`, `parser.rs:278-288`: the indices of the chain of
parents starting at `i`, and the events with the links cleared.  `n` bounds the length. -/
def chain : Nat → List Event → Nat → List Nat × List Event
  | 0, es, _ => ([], es)
  | n + 1, es, i =>
    match es[i]? with
    | some (.startNode k (some j)) =>
      let r := chain n (es.set i (.startNode k none)) j
      (i :: r.1, r.2)
    | some (.startNode _ none) => ([i], es)
    | _ => ([], es)

/-- Taking the events at the given indices out, leaving placeholders. -/
def takeOut : List Event → List Nat → List Event × List Event
  | es, [] => ([], es)
  | es, i :: is =>
    let r := takeOut (es.set i .placeholder) is
    ((es[i]?.getD .placeholder) :: r.1, r.2)

/-- One round of `reorder_forward_parents`, `parser.rs:275-296`. -/
def reorderStep (es out : List Event) (i : Nat) : List Event × List Event :=
  match es[i]? with
  | some (.startNode _ (some _)) =>
    let c := chain (es.length + 1) es i
    let r := takeOut c.2 c.1.reverse
    (r.2, out ++ r.1)
  | some .placeholder => (es, out)
  | some e => (es.set i .placeholder, out ++ [e])
  | none => (es, out)

/-- All rounds. -/
def reorderLoop (es out : List Event) (is : List Nat) : List Event × List Event :=
  is.foldl (fun p i => reorderStep p.1 p.2 i) (es, out)

/-- `reorder_forward_parents`, `parser.rs:271-300`; `none` when the assertion at the end fails. -/
def reorder (es : List Event) : Option (List Event) :=
  let r := reorderLoop es [] (List.range es.length)
  if es.length = r.2.length then some r.2 else none

/-- `SyntaxElement`, `SyntaxNode`, ..., `ticc-syntax/src/lib.rs:163-212`.  A span is a pair of
positions. -/
inductive Elem
  | node (id : Nat) (kind : SyntaxKind) (span full : Nat × Nat) (children : List Elem)
  | token (kind : TokenKind) (span : Nat × Nat)
  | trivia (kind : TriviaKind) (span : Nat × Nat)

/-- A node under construction; its spans are both the position it started at. -/
structure Open where
  id : Nat
  kind : SyntaxKind
  at_ : Nat
  children : List Elem

/-- `SyntaxBuilder`, `ticc-syntax/src/lib.rs:234-239`; the last open node comes first. -/
structure Builder where
  nodes : List Open
  pos : Nat

def Elem.fullEnd : Elem → Nat
  | .node _ _ _ f _ => f.2
  | .token _ s => s.2
  | .trivia _ s => s.2

/-- The start of what is not trivia. -/
def Elem.spanStart? : Elem → Option Nat
  | .node _ _ s _ _ => some s.1
  | .token _ s => some s.1
  | .trivia _ _ => none

/-- The end of what is not trivia. -/
def Elem.spanEnd? : Elem → Option Nat
  | .node _ _ s _ _ => some s.2
  | .token _ s => some s.2
  | .trivia _ _ => none

/-- `finish_node_internal`, `ticc-syntax/src/lib.rs:297-327`, on the popped node. -/
def Open.close (o : Open) : Elem :=
  let fullEnd := (o.children.reverse.head?.map Elem.fullEnd).getD o.at_
  let start := (o.children.findSome? Elem.spanStart?).getD o.at_
  let stop := (o.children.reverse.findSome? Elem.spanEnd?).getD o.at_
  .node o.id o.kind (start, stop) (o.at_, fullEnd) o.children

/-- `start_node`, `ticc-syntax/src/lib.rs:251-259`. -/
def Builder.startNode (b : Builder) (id : Nat) (k : SyntaxKind) : Builder :=
  { b with nodes := { id, kind := k, at_ := b.pos, children := [] } :: b.nodes }

/-- Adding a child to the last open node. -/
def Builder.push (b : Builder) (e : Elem) : Option Builder :=
  match b.nodes with
  | [] => none
  | o :: os => some { b with nodes := { o with children := o.children ++ [e] } :: os }

/-- `add_token`, `ticc-syntax/src/lib.rs:261-269`. -/
def Builder.addToken (b : Builder) (k : TokenKind) (len : Nat) : Option Builder :=
  (b.push (.token k (b.pos, b.pos + len))).map fun b => { b with pos := b.pos + len }

/-- `add_trivia`, `ticc-syntax/src/lib.rs:271-279`. -/
def Builder.addTrivia (b : Builder) (k : TriviaKind) (len : Nat) : Option Builder :=
  (b.push (.trivia k (b.pos, b.pos + len))).map fun b => { b with pos := b.pos + len }

/-- `finish_node`, `ticc-syntax/src/lib.rs:281-285`. -/
def Builder.finishNode (b : Builder) : Option Builder :=
  match b.nodes with
  | [] => none
  | o :: os => Builder.push { b with nodes := os } o.close

/-- `finish`, `ticc-syntax/src/lib.rs:287-295`. -/
def Builder.finish (b : Builder) : Option Elem :=
  match b.nodes with
  | [o] => some o.close
  | _ => none

/-- `for (kind, span) in trivia.drain(..) { builder.add_trivia(kind, span.source_len()) }`. -/
def addTrivias : List (TriviaKind × Nat) → Builder → Option Builder
  | [], b => some b
  | (k, n) :: ts, b => (b.addTrivia k n).bind (addTrivias ts)

/-- The trivia at the front of the input. -/
def leadTrivia : List Tok → List (TriviaKind × Nat) × List Tok
  | [] => ([], [])
  | t :: ts =>
    match t.kind with
    | .trivia k => let r := leadTrivia ts; ((k, t.text.length) :: r.1, r.2)
    | .token _ => ([], t :: ts)

/-- The split of `parser.rs:371-382`: trivia up to and including the first newline belong to the
token before them. -/
def splitTrivia : List (TriviaKind × Nat) → List (TriviaKind × Nat) × List (TriviaKind × Nat)
  | [] => ([], [])
  | (k, n) :: ts => if k = .newline then ([(k, n)], ts) else let r := splitTrivia ts; ((k, n) :: r.1, r.2)

/-- The state of `events_to_node`, `parser.rs:341-352`. -/
structure NodeState where
  builder : Builder
  lexer : List Tok
  trivia : List (TriviaKind × Nat)
  nextId : Nat
  sinceError : Nat
  errors : List (Nat × Nat)

/-- One event, `parser.rs:353-400`. -/
def nodeStep (s : NodeState) : Event → Option NodeState
  | .startNode k _ => some { s with builder := s.builder.startNode s.nextId k, nextId := s.nextId + 1 }
  | .addToken k =>
    (addTrivias s.trivia s.builder).bind fun b =>
      match s.lexer with
      | { kind := .token actual, text } :: ts =>
        if actual = k then
          (b.addToken k text.length).bind fun b =>
            let lt := leadTrivia ts
            let sp := splitTrivia lt.1
            (addTrivias sp.1 b).map fun b =>
              { s with builder := b, lexer := lt.2, trivia := sp.2, sinceError := s.sinceError + 1 }
        else none
      | _ => none
  | .finishNode => s.builder.finishNode.map fun b => { s with builder := b }
  | .placeholder => none
  | .error a b => some { s with errors := if 2 ≤ s.sinceError then s.errors ++ [(a, b)] else s.errors, sinceError := 0 }

/-- The loop over the events. -/
def nodeSteps : List Event → NodeState → Option NodeState
  | [], s => some s
  | e :: es, s => (nodeStep s e).bind (nodeSteps es)

/-- The end of `events_to_node`, `parser.rs:392-404`: what is left must be trivia. -/
def addRest : List Tok → Builder → Option Builder
  | [], b => some b
  | t :: ts, b =>
    match t.kind with
    | .token _ => none
    | .trivia k => (b.addTrivia k t.text.length).bind (addRest ts)

/-- `events_to_node`, `parser.rs:336-408`. -/
def eventsToNode (events : List Event) (startPos : Nat) (toks : List Tok) (eatAll : Bool) : Option (Elem × List (Nat × Nat)) :=
  let lt := leadTrivia toks
  let b : Builder := { nodes := [], pos := startPos }
  (nodeSteps events { builder := b.startNode 0 .root, lexer := lt.2, trivia := lt.1, nextId := 1, sinceError := 2, errors := [] }).bind fun s =>
    (if eatAll then (addTrivias s.trivia s.builder).bind (addRest s.lexer) else some s.builder).bind fun b =>
      b.finish.map fun root => (root, s.errors)

/-- The depth of recursion that suffices for an input (see `parse_total`). -/
def enough (toks : List Tok) : Nat := 10 * toks.length + 10

/-- `parse_one_item`, `parser.rs:17-41`: the tree and the diagnostics. -/
def parseOneItem (toks : List Tok) (startPos : Nat) : Option (Elem × List (Nat × Nat)) := do
  let s0 : PState := { sol := true, toks := toks, off := startPos, pos := startPos, events := [], hints := [], expected := [] }
  let (eof, s1) ← atEof s0
  let ((), s2) ← if eof then pure ((), s1) else item (enough toks) s1
  let (eatAll, s3) ← atEof s2
  let events ← reorder s3.events
  eventsToNode events startPos toks eatAll

end Tic.Parser
