/-
C49: concrete cases.
-/
import Verif.PropLeaf

namespace Tic.Lower

open Tic.Parser
open Tic.Grammar (Syn)

/-- A text. -/
abbrev tx (s : String) : Text := s.toUTF8.data.toList

/-- Tokens of the example. -/
def tk (k : TokenKind) (s : String) : Tok := ⟨.token k, tx s⟩
def sp : Tok := ⟨.trivia .space, [32]⟩

/-- `let f : a.b int = 12 - x * (h m.y);` with a newline at the end. -/
def exToks : List Tok :=
  [tk .let_ "let", sp, tk .ident "f", sp, tk .colon ":", sp, tk .ident "a", tk .dot ".", tk .ident "b", sp, tk .int "int", sp, tk .equals "=", sp,
   tk .number "12", sp, tk .minus "-", sp, tk .ident "x", sp, tk .star "*", sp, tk .leftParen "(", tk .ident "h", sp, tk .ident "m", tk .dot ".", tk .ident "y",
   tk .rightParen ")", tk .semicolon ";", ⟨.trivia .newline, [10]⟩]

/-- What is meant. -/
def exItem : SItem :=
  .value false (tx "f") (some (.named (some (tx "a")) (tx "b") [.int]))
    (.binary .minus (.number (tx "12")) (.binary .star (.name (tx "x")) (.paren (.apply (.name (tx "h")) (.inModule (tx "m") (tx "y"))))))

theorem exItem_bracketed : exItem.Bracketed := by
  have := Grammar.Item.value (x := []) .none (.some (.app (.app .inModule (args := [.node .intType [.tok .int]]) (by intro t ht; rw [List.mem_singleton] at ht; rw [ht]; exact .int))))
    (.op (.bin (l := 3) (o := .minus) rfl (by decide) (.app (.atom .number)) (.bin (l := 4) (o := .star) rfl (by decide) (.app (.atom .name))
      (.app (.atom (.paren (.op (.app (.app (.atom .name) .inModule)))))))))
  exact this

theorem exItem_words : wordsOf exToks = exItem.tree.words := by decide +kernel

example : ∃ root v, parseOneItem exToks 0 = some (root, []) ∧ item ⟨0, textOf exToks⟩ root = some v ∧ ShowsItem v exItem := by
  obtain ⟨root, _, _, v, h1, -, -, -, h5, h6⟩ := reads_back exToks 0 exItem [] exItem_bracketed (by rw [exItem_words]; simp)
  exact ⟨root, v, h1, h5, h6⟩

/-- The other grouping of the operators is not properly bracketed: written out, it is the same text, which means `exItem`. -/
example : ¬ (SItem.value false (tx "f") (some (.named (some (tx "a")) (tx "b") [.int]))
    (.binary .star (.binary .minus (.number (tx "12")) (.name (tx "x"))) (.paren (.apply (.name (tx "h")) (.inModule (tx "m") (tx "y")))))).Bracketed := by
  intro h
  have := (written_one exItem_bracketed h (r := []) (r' := []) (by rw [exItem_words]; simp) (by rw [exItem_words]; decide +kernel)).1
  simp [SItem.forget, exItem] at this

/-- `export type t a = export A rec (int -> a) | B;`: both kinds of export, parameters and fields. -/
example : ∃ toks : List Tok, ∃ root v, parseOneItem toks 7 = some (root, []) ∧ item ⟨7, textOf toks⟩ root = some v ∧
    ShowsItem v (.type true (tx "t") [tx "a"] true false ⟨tx "A", [.rec_, .type (.paren (.fn .int (.named none (tx "a") [])))]⟩ [⟨tx "B", []⟩]) := by
  refine ⟨[tk .export_ "export", sp, tk .type "type", sp, tk .ident "t", sp, tk .ident "a", sp, tk .equals "=", sp, tk .export_ "export", sp, tk .ident "A", sp, tk .rec_ "rec", sp,
    tk .leftParen "(", tk .int "int", sp, tk .arrow "->", sp, tk .ident "a", tk .rightParen ")", sp, tk .pipe "|", sp, tk .ident "B", tk .semicolon ";"], ?_⟩
  obtain ⟨root, _, _, v, h1, -, -, -, h5, h6⟩ := reads_back
    [tk .export_ "export", sp, tk .type "type", sp, tk .ident "t", sp, tk .ident "a", sp, tk .equals "=", sp, tk .export_ "export", sp, tk .ident "A", sp, tk .rec_ "rec", sp,
    tk .leftParen "(", tk .int "int", sp, tk .arrow "->", sp, tk .ident "a", tk .rightParen ")", sp, tk .pipe "|", sp, tk .ident "B", tk .semicolon ";"] 7 (.type true (tx "t") [tx "a"] true false ⟨tx "A", [.rec_, .type (.paren (.fn .int (.named none (tx "a") [])))]⟩ [⟨tx "B", []⟩]) []
    (by
      have := Grammar.Item.type (x := [.tok .export_]) (xc := [.tok .export_]) (p := [])
        (cs := [.node .typeCase [.tok .pipe, Grammar.nm]]) .some (.some (n := 0)) .some .none
        (.mk (fs := [.node .recField [.tok .rec_], .node .typeField [.node .parenType [.tok .leftParen, .node .fnType [.node .intType [.tok .int], .tok .arrow, .node .namedType [Grammar.nm]], .tok .rightParen]]])
          (by
            intro f hf
            simp only [List.mem_cons, List.not_mem_nil, or_false] at hf
            rcases hf with rfl | rfl
            · exact .rec_
            · exact .ty (.paren (.fn (.atom .int) (.app (.atom (.named .plain)))))))
        (by
          intro c hc
          simp only [List.mem_singleton] at hc
          subst hc
          exact ⟨_, .mk (fs := []) (by simp), rfl⟩)
      exact this)
    (by decide +kernel)
  exact ⟨root, v, h1, h5, h6⟩

/-- A whole file of two items. -/
example : (∀ i ∈ [exItem, exItem], i.Bracketed) ∧ wordsOf (exToks ++ exToks) = [exItem, exItem].flatMap (·.tree.words) :=
  ⟨by simp [exItem_bracketed], by decide +kernel⟩

/-! ### Text with errors -/

/-- `let a = match x with | -> 1 end;`: the constructor is missing. -/
def badToks : List Tok :=
  [tk .let_ "let", sp, tk .ident "a", sp, tk .equals "=", sp, tk .match_ "match", sp, tk .ident "x", sp, tk .with_ "with", sp, tk .pipe "|", sp, tk .arrow "->", sp, tk .number "1", sp,
   tk .end_ "end", tk .semicolon ";"]

/-- All nodes of one token in a tree, with their tokens. -/
def singles (s : Source) : Elem → List (SyntaxKind × List (TokenKind × Text))
  | .node _ k _ _ cs => (if single k then [(k, tokensIn s cs)] else []) ++ go s cs
  | _ => []
where
  go (s : Source) : List Elem → List (SyntaxKind × List (TokenKind × Text))
    | [] => []
    | c :: cs => singles s c ++ go s cs

set_option synthInstance.maxSize 4000 in
/-- Reading it gives one error and a tree with three nodes of one token. -/
example : (parseOneItem badToks 0).toList.map (fun r => (r.2.length, singles ⟨0, textOf badToks⟩ r.1)) =
    [(1, [(.name, [(.ident, tx "a")]), (.name, [(.ident, tx "x")]), (.numberExpr, [(.number, tx "1")])])] := by decide +kernel

/-- What the accessors show of a case: its constructor, whether it has one, and the token of its body if that is a number. -/
def caseSummary : VCase → Bool × Bool × Option (Option (TokenKind × Text))
  | .mk ns c _ e => (ns.isSome, c.isSome, match e with | some (.number t) => some t | _ => none)

/-- The cases of the `match` that is the value of an item. -/
def summary : VItem → List (Bool × Bool × Option (Option (TokenKind × Text)))
  | .value _ _ _ (some (.match_ _ cs)) => cs.map caseSummary
  | _ => []

set_option synthInstance.maxSize 4000 in
/-- The tree has a case that has a body but no constructor. -/
example : ((parseOneItem badToks 0).toList.map fun r => (item ⟨0, textOf badToks⟩ r.1).toList.map summary) =
    [[[(false, false, some (some (.number, tx "1")))]]] := by decide +kernel

end Tic.Lower
