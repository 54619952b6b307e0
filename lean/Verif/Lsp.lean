/-
Model of the language server's position translation (`ticc-lsp/src/utils.rs`)
and semantic-token encoding (`ticc-lsp/src/semantic_tokens.rs`).

Source text is a list of Unicode scalar values; byte offsets are offsets into
its UTF-8 encoding.  `usize`/`u32` are modelled by `Nat` (the `as u32` casts are
exact for sources below 4 GiB, which `Pos` already requires).  `Option.none`
is a panic (slice out of range or not on a character boundary).
-/
namespace Tic.Lsp

/-- Length in bytes of the UTF-8 encoding of a text (Rust `str::len`). -/
def blen : List Char → Nat
  | [] => 0
  | c :: cs => c.utf8Size + blen cs

/-- Rust `char::len_utf16`. -/
def u16len (c : Char) : Nat := if c.toNat < 0x10000 then 1 else 2

/-- `s.encode_utf16().count()`. -/
def u16count : List Char → Nat
  | [] => 0
  | c :: cs => u16len c + u16count cs

/-- `&s[n..]`: `none` when `n` is past the end or inside a character. -/
def dropBytes : List Char → Nat → Option (List Char)
  | cs, 0 => some cs
  | [], _ + 1 => none
  | c :: cs, n + 1 => if n + 1 < c.utf8Size then none else dropBytes cs (n + 1 - c.utf8Size)

/-- `&s[..n]`. -/
def takeBytes : List Char → Nat → Option (List Char)
  | _, 0 => some []
  | [], _ + 1 => none
  | c :: cs, n + 1 =>
    if n + 1 < c.utf8Size then none else (takeBytes cs (n + 1 - c.utf8Size)).map (c :: ·)

/-- `&s[a..b]`. -/
def slice (s : List Char) (a b : Nat) : Option (List Char) :=
  if a ≤ b then (dropBytes s a).bind fun t => takeBytes t (b - a) else none

/-- `struct LocationTranslator`, `ticc-lsp/src/utils.rs:4-8`. -/
structure Translator where
  source : List Char
  lineStarts : List Nat
  complete : Bool

/-- `LocationTranslator::for_source`, `utils.rs:11-17`. -/
def forSource (src : List Char) : Translator :=
  { source := src, lineStarts := [0], complete := false }

/-- The `char_indices` loop of `find_next_line_position`, `utils.rs:40-45`:
byte index of the first newline. -/
def findNewline : List Char → Nat → Option Nat
  | [], _ => none
  | c :: cs, i => if c = '\n' then some i else findNewline cs (i + c.utf8Size)

/-- `find_next_line_position`, `utils.rs:37-47`. -/
def findNext (t : Translator) : Option Translator :=
  match t.lineStarts.getLast? with
  | none => none                               -- `.last().unwrap()`
  | some last =>
    match dropBytes t.source last with
    | none => none
    | some suffix =>
      match findNewline suffix 0 with
      | some i => some { t with lineStarts := t.lineStarts ++ [last + i + 1] }
      | none => some { t with complete := true }

theorem dropBytes_le {s : List Char} {n : Nat} {t : List Char} (h : dropBytes s n = some t) :
    n + blen t = blen s := by
  induction s generalizing n with
  | nil => cases n <;> simp_all [dropBytes, blen]
  | cons c cs ih =>
    cases n with
    | zero => simp [dropBytes] at h; subst h; simp
    | succ n =>
      simp only [dropBytes] at h
      split at h
      · cases h
      · have := ih h; simp only [blen]; omega

theorem findNewline_lt {s : List Char} {i j : Nat} (h : findNewline s i = some j) :
    i ≤ j ∧ j < i + blen s := by
  induction s generalizing i with
  | nil => simp [findNewline] at h
  | cons c cs ih =>
    simp only [findNewline] at h
    have := c.utf8Size_pos
    split at h
    · simp at h; subst h; simp only [blen]; omega
    · have := ih h; simp only [blen]; omega

/-- Progress measure of the two lazy loops: how much of the text is still to be
scanned. -/
def remaining (t : Translator) : Nat :=
  if t.complete then 0 else 1 + (blen t.source - (t.lineStarts.getLast?.getD 0))

theorem findNext_remaining {t t' : Translator} (h : findNext t = some t')
    (hc : t.complete = false) : remaining t' < remaining t := by
  unfold findNext at h
  cases hl : t.lineStarts.getLast? with
  | none => simp [hl] at h
  | some last =>
    simp only [hl] at h
    cases hd : dropBytes t.source last with
    | none => simp [hd] at h
    | some suffix =>
      simp only [hd] at h
      have hlen := dropBytes_le hd
      cases hn : findNewline suffix 0 with
      | none =>
        simp only [hn, Option.some.injEq] at h
        subst h; simp [remaining, hc]; omega
      | some i =>
        simp only [hn, Option.some.injEq] at h
        have := findNewline_lt hn
        subst h; simp [remaining, hc, hl]; omega

/-- The `while` loop of `line_index`, `utils.rs:28-30`. -/
def ensurePos (t : Translator) (pos : Nat) : Option Translator :=
  if hc : t.complete = false ∧ (t.lineStarts.getLast?.getD 0) ≤ pos then
    match h : findNext t with
    | none => none
    | some t' => ensurePos t' pos
  else some t
termination_by remaining t
decreasing_by exact findNext_remaining h hc.1

/-- Rust's `slice::binary_search` on a sorted slice, by its documented contract:
`Ok` with the index of an equal element, else `Err` with the number of smaller
elements (`utils.rs:31`). -/
def binarySearch (l : List Nat) (x : Nat) : Sum Nat Nat :=
  match l.findIdx? (· == x) with
  | some i => .inl i
  | none => .inr (l.countP (· < x))

/-- `line_index`, `utils.rs:27-35`. -/
def lineIndex (t : Translator) (pos : Nat) : Option (Translator × Nat) :=
  (ensurePos t pos).bind fun t =>
    match binarySearch t.lineStarts pos with
    | .inl i => some (t, i)
    | .inr i => if i = 0 then none else some (t, i - 1)

/-- An LSP `Position`. -/
structure Position where
  line : Nat
  character : Nat
deriving DecidableEq, Repr

/-- `impl ToLsp for Pos`, `utils.rs:56-70`. -/
def toLsp (t : Translator) (pos : Nat) : Option (Translator × Position) :=
  (lineIndex t pos).bind fun (t, line) =>
    (t.lineStarts[line]?).bind fun lineStart =>
      (slice t.source lineStart pos).bind fun src =>
        some (t, { line, character := u16count src })

/-- The `while` loop of `to_ticc`, `utils.rs:104-106`. -/
def ensureLine (t : Translator) (line : Nat) : Option Translator :=
  if hc : t.complete = false ∧ t.lineStarts.length ≤ line then
    match h : findNext t with
    | none => none
    | some t' => ensureLine t' line
  else some t
termination_by remaining t
decreasing_by exact findNext_remaining h hc.1

/-- The column scan of `to_ticc`, `utils.rs:116-122`: byte index of the first
character whose cumulative UTF-16 length exceeds `character`. -/
def scanCol : List Char → (cur i character : Nat) → Option Nat
  | [], _, _, _ => none
  | c :: cs, cur, i, character =>
    if cur + u16len c > character then some i
    else scanCol cs (cur + u16len c) (i + c.utf8Size) character

/-- `impl ToTicc for Position`, `utils.rs:100-133`. -/
def toTicc (t : Translator) (p : Position) : Option (Translator × Nat) :=
  (ensureLine t p.line).bind fun t =>
    match t.lineStarts[p.line]?, t.lineStarts[p.line + 1]? with
    | some lineStart, next =>
      let lineEnd := match next with
        | some n => n - 1
        | none => blen t.source
      (slice t.source lineStart lineEnd).bind fun lineSource =>
        match scanCol lineSource 0 0 p.character with
        | some i => some (t, lineStart + i)
        | none => some (t, lineEnd)
    | none, none => some (t, blen t.source)
    | none, some _ => none                     -- `unreachable!()`

/-- One request to a translator. -/
inductive Query
  | lsp (pos : Nat)
  | ticc (p : Position)

/-- The state after a request (`none`: it panicked). -/
def Query.run (t : Translator) : Query → Option Translator
  | .lsp pos => (toLsp t pos).map (·.1)
  | .ticc p => (toTicc t p).map (·.1)

/-- The state after a history of requests. -/
def runAll (t : Translator) : List Query → Option Translator
  | [] => some t
  | q :: qs => (q.run t).bind fun t => runAll t qs

/-! ### Semantic tokens -/

/-- `lsp_types::SemanticToken` without the constant modifier bitset. -/
structure SemToken where
  deltaLine : Nat
  deltaStart : Nat
  length : Nat
  kind : Nat
deriving DecidableEq, Repr

/-- A classified token: byte span and token type index
(`ticc/src/api/tokens.rs`, `semantic_tokens.rs:55-68`). -/
structure Tok where
  start : Nat
  stop : Nat
  kind : Nat
deriving DecidableEq, Repr

/-- Loop state of `get_semantic_tokens`, `semantic_tokens.rs:9-11`. -/
structure TokState where
  lastTokenPos : Nat × Nat := (0, 0)
  currentPos : Nat × Nat := (0, 0)
  lastTokenStart : Nat := 0

/-- The character loop, `semantic_tokens.rs:16-23`. -/
def advance : List Char → Nat × Nat → Nat × Nat
  | [], p => p
  | c :: cs, p => advance cs (if c = '\n' then (p.1 + 1, 0) else (p.1, p.2 + u16len c))

/-- Rust `u32` subtraction: `none` is the overflow panic. -/
def subU (a b : Nat) : Option Nat := if b ≤ a then some (a - b) else none

/-- One iteration of the token loop, `semantic_tokens.rs:13-38`. -/
def tokStep (src : List Char) (st : TokState) (tok : Tok) : Option (TokState × SemToken) := do
  let gap ← slice src st.lastTokenStart tok.start
  let cur := advance gap st.currentPos
  let text ← slice src tok.start tok.stop
  let length := u16count text
  let deltaLine ← subU cur.1 st.lastTokenPos.1
  let deltaStart ← subU cur.2 (if deltaLine = 0 then st.lastTokenPos.2 else 0)
  pure ({ lastTokenPos := cur, currentPos := cur, lastTokenStart := tok.start },
        { deltaLine, deltaStart, length, kind := tok.kind })

/-- `get_semantic_tokens`, `semantic_tokens.rs:4-42`. -/
def semTokens (src : List Char) (toks : List Tok) : Option (List SemToken) :=
  let rec go (st : TokState) : List Tok → Option (List SemToken)
    | [] => some []
    | t :: ts => do
      let (st, s) ← tokStep src st t
      let rest ← go st ts
      pure (s :: rest)
  go {} toks

end Tic.Lsp
