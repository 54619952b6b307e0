/-
C52: types in hovers and messages are printed without ambiguity, and as the language writes them.
-/
import Verif.PrintTyProof
import Verif.PropLexer

namespace Tic.Print

open Tic.Unify (Symbol IrTy)
open Tic.Lexer
open Tic.Parser (TokenKind Phases)
open Tic.Lower (STy SItem SEx Each nmT kw annT)

/-! ### Printed types are unambiguous -/

/-- Definitions have names the lexer reads as names. -/
def ProperNames (ds : Defs) : Prop := ∀ d ∈ ds.flatten, IsA (.token .ident) d.2

theorem ProperNames.of {ds : Defs} (h : ProperNames ds) (s n) (hs : nameOf ds s = some n) : IsA (.token .ident) n := by
  unfold nameOf at hs
  rw [Option.map_eq_some_iff] at hs
  obtain ⟨d, h1, rfl⟩ := hs
  exact h d (List.mem_of_find?_eq_some h1)

theorem plain_of_word {c : UInt8} (h : wordChar c = true) : plainChar c = true := by
  refine (Bool.eq_false_or_eq_true (plainChar c)).resolve_right fun h' => ?_
  simp only [plainChar, Bool.not_eq_eq_eq_not, Bool.not_false, Bool.or_eq_true, beq_iff_eq] at h'
  rcases h' with (((rfl | rfl) | rfl) | rfl) | rfl <;> exact absurd h (by decide)

/-- Names are words. -/
theorem name_word {n : Text} (h : IsA (.token .ident) n) : Word n := by
  obtain ⟨hr, hk⟩ := h
  cases hr with
  | literal hm => exact absurd hm (hk rfl _)
  | name a b =>
    refine ⟨fun c hc => ?_, by simp⟩
    rcases List.mem_cons.1 hc with rfl | hc
    · simp [wordChar, a]
    · exact b c hc

theorem name_head {n : Text} (h : IsA (.token .ident) n) : ∃ b bs, n = b :: bs ∧ letter b = true := by
  obtain ⟨hr, hk⟩ := h
  cases hr with
  | literal hm => exact absurd hm (hk rfl _)
  | name a b => exact ⟨_, _, rfl, a⟩

theorem clear_name {n : Text} (h : IsA (.token .ident) n) (hn : n ≠ [95]) : Clear n := by
  have hw := name_word h
  obtain ⟨b, bs, rfl, hb⟩ := name_head h
  have hc := hw.chars
  have hk : ∀ k, (b :: bs, k) ∉ literals := h.notKeyword rfl
  refine ⟨by simp, fun c h => plain_of_word (hc c h), ⟨fun e => ?_, fun e => ?_⟩, ?_⟩
  · simp at e; rw [e] at hb; exact absurd hb (by decide)
  · simp at e; rw [e] at hb; exact absurd hb (by decide)
  · unfold wordTy
    have h1 : b :: bs ≠ [105, 110, 116] := fun e => hk .int (by rw [e]; decide)
    have h2 : b :: bs ≠ [98, 111, 111, 108] := fun e => hk .bool (by rw [e]; decide)
    have h3 : b :: bs ≠ [115, 116, 114, 105, 110, 103] := fun e => hk .stringTy (by rw [e]; decide)
    have h4 : b :: bs ≠ [63] := fun e => by
      injection e with e _; rw [e] at hb; exact absurd hb (by decide)
    rw [if_neg h1, if_neg h2, if_neg h3, if_neg h4, if_neg hn]

theorem clear_unknown : Clear unknown := ⟨by decide, by decide, by decide, rfl⟩

theorem clear_nameFor {ds : Defs} (h : ProperNames ds) (h' : ∀ s, nameOf ds s ≠ some [95]) (s : Symbol) : Clear (nameFor ds s) := by
  unfold nameFor
  cases hd : nameOf ds s with
  | none => exact clear_unknown
  | some n => exact clear_name (h.of s n hd) fun e => h' s (e ▸ hd)

mutual
theorem clear_shown {ds : Defs} (h : ∀ s, Clear (nameFor ds s)) : ∀ t, AllClear (shown ds t)
  | .named s args => ⟨h s, clear_showns h args⟩
  | .fn a b => ⟨clear_shown h a, clear_shown h b⟩
  | .folded a b => ⟨clear_shown h a, clear_shown h b⟩
  | .int | .bool | .str | .error | .infer => by simp [shown, AllClear]
theorem clear_showns {ds : Defs} (h : ∀ s, Clear (nameFor ds s)) : ∀ ts, AllClears (showns ds ts)
  | [] => by simp [showns, AllClears]
  | t :: ts => ⟨clear_shown h t, clear_showns h ts⟩
end

/-- Printing several types one after another with one printer: the texts. -/
def printAll (ds : Defs) : Cache → List IrTy → List Text
  | _, [] => []
  | c, t :: ts => (printType ds c t).1 :: printAll ds (printType ds c t).2 ts

/-- **C52**, what was printed before does not matter. -/
theorem printed_alone (ds : Defs) : ∀ (ts : List IrTy) (c : Cache), Consistent ds c → printAll ds c ts = ts.map fun t => (printType ds [] t).1
  | [], _, _ => rfl
  | t :: ts, c, hc => by
    have h := print_pure t 0 hc
    simp only [printType] at *
    simp only [printAll, printType, List.map_cons]
    rw [printed_alone ds ts _ h.2, h.1, (print_pure t 0 (consistent_nil ds)).1]
    rfl

/-- **C52**, printed types are unambiguous: types with one text are one type, up to definitions with the same name (and up to
types of other modules, which are all printed `???`).  No type may be called `_`. -/
theorem printed_unambiguous {ds : Defs} (h : ProperNames ds) (h' : ∀ d ∈ ds.flatten, d.2 ≠ [95]) {t u : IrTy}
    (he : (printType ds [] t).1 = (printType ds [] u).1) : shown ds t = shown ds u := by
  have hc := clear_nameFor h (fun s hs => by
    unfold nameOf at hs
    rw [Option.map_eq_some_iff] at hs
    obtain ⟨d, h1, h2⟩ := hs
    exact h' d (List.mem_of_find?_eq_some h1) h2)
  refine pr_inj (clear_shown hc t) (clear_shown hc u) ?_
  rw [← (print_pure t 0 (consistent_nil ds)).1, ← (print_pure u 0 (consistent_nil ds)).1]
  exact he

/-- The exception is one: a type called `_` is printed like a type that is not known (finding 42). -/
theorem underscore_ambiguous : ∃ (ds : Defs) (t u : IrTy), ProperNames ds ∧ (printType ds [] t).1 = (printType ds [] u).1 ∧ shown ds t ≠ shown ds u := by
  refine ⟨[[(7, [95])]], .infer, .named 7 [], fun d h => ?_, by decide +kernel, by simp [shown]⟩
  simp only [List.flatten_cons, List.flatten_nil, List.append_nil, List.mem_singleton] at h
  subst h
  exact ⟨.name (by decide) (by simp), fun _ k => by cases k <;> decide⟩

/-! ### Printed types are types of the language -/

/-- What a type someone writes means, where names are those of the file's definitions. -/
inductive Means (ds : Defs) : STy → IrTy → Prop
  | int : Means ds .int .int
  | bool : Means ds .bool .bool
  | string : Means ds .string .str
  | named {s n xs ts} : nameOf ds s = some n → Each (Means ds) xs ts → Means ds (.named none n xs) (.named s ts)
  | fn {x y a b} : Means ds x a → Means ds y b → Means ds (.fn x y) (.fn a b)
  | paren {x t} : Means ds x t → Means ds (.paren x) t

mutual
/-- Types that can be written: of this file, and completely known. -/
def Plain (ds : Defs) : IrTy → Prop
  | .int | .bool | .str => True
  | .named s args => (nameOf ds s).isSome = true ∧ Plains ds args
  | .fn a b => Plain ds a ∧ Plain ds b
  | .error | .infer | .folded _ _ => False
def Plains (ds : Defs) : List IrTy → Prop
  | [] => True
  | t :: ts => Plain ds t ∧ Plains ds ts
end

/-- What may follow a printed type without being read as part of its last word. -/
def NextOK (s : Text) : Prop := ∀ c, s.head? = some c → wordChar c = false

theorem ends_word {w s : Text} (hw : Word w) (hs : NextOK s) : Ends w s := by
  cases s with
  | nil => exact .eof
  | cons c cs => exact .word hw (hs c rfl)

/-- A piece of text that is read as some tokens wherever it stands. -/
def Piece (x : Text) (ts : List (TokenKind × Text)) : Prop := ∀ s us, NextOK s → Written s us → Written (x ++ s) (ts ++ us)

theorem nextOK_cons {c : UInt8} {s : Text} (h : wordChar c = false) : NextOK (c :: s) := fun d hd => by
  have : d = c := by simpa using hd.symm
  rw [this]; exact h

theorem Piece.word {w : Text} {k : TokenKind} (h : IsA (.token k) w) (hw : Word w) : Piece w [(k, w)] :=
  fun _ _ hs hu => .token h (ends_word hw hs) hu

theorem Piece.paren {x ts} (h : Piece x ts) : Piece ([40] ++ x ++ [41]) ((.leftParen, [40]) :: ts ++ [(.rightParen, [41])]) := fun s us hs hu => by
  have h1 : IsA (.token .rightParen) [41] := ⟨.literal (by decide), by simp⟩
  have h2 : IsA (.token .leftParen) [40] := ⟨.literal (by decide), by simp⟩
  have h3 := h _ _ (nextOK_cons (by decide)) (.token h1 (.lone (b := 41) (by decide) rfl) hu)
  have h4 := Written.token h2 (.lone (b := 40) (by decide) rfl) h3
  simpa [List.append_assoc] using h4

theorem Piece.arrow {x ts y us} (hx : Piece x ts) (hy : Piece y us) : Piece (x ++ [32, 45, 62, 32] ++ y) (ts ++ (.arrow, [45, 62]) :: us) := fun s vs hs hv => by
  have h1 : IsA (.token .arrow) [45, 62] := ⟨.literal (by decide), by simp⟩
  have h3 := hx _ _ (nextOK_cons (by decide)) (.space (.token h1 (.blank (by decide)) (.space (hy s vs hs hv))))
  simpa [List.append_assoc] using h3

theorem Piece.args {x ts y us} (hx : Piece x ts) (hy : Piece y us) (hn : ∀ s, NextOK s → NextOK (y ++ s)) : Piece (32 :: x ++ y) (ts ++ us) := fun s vs hs hv => by
  have h3 := Written.space (hx _ _ (hn s hs) (hy s vs hs hv))
  simpa [List.append_assoc] using h3

theorem Piece.app {w : Text} {k : TokenKind} {y us} (h : IsA (.token k) w) (hw : Word w) (hy : Piece y us) (hn : ∀ s, NextOK s → NextOK (y ++ s)) :
    Piece (w ++ y) ((k, w) :: us) := fun s vs hs hv => by
  have h3 := Written.token h (ends_word hw (hn s hs)) (hy s vs hs hv)
  simpa [List.append_assoc] using h3

/-- The shapes of types in the three positions. -/
def InPos : Nat → STy → Prop
  | 0, x => Grammar.Ty x.tree.shape
  | 1, x => Grammar.AppTy x.tree.shape
  | _, x => Grammar.AtomTy x.tree.shape

/-- A printed type is a piece of text that is read as a type of the language with the same meaning. -/
def Printed (ds : Defs) (t : IrTy) (p : Nat) : Prop :=
  ∃ (x : STy) (ts : List (TokenKind × Text)), Piece (pr (shown ds t) p) ts ∧ ts.map word = x.tree.words ∧ InPos p x ∧ Means ds x t

theorem InPos.down {p : Nat} {x : STy} (h : InPos 2 x) : InPos p x := by
  match p with
  | 0 => exact .app (.atom h)
  | 1 => exact .atom h
  | _ + 2 => exact h

theorem words_paren {x : STy} {ts : List (TokenKind × Text)} (h : ts.map word = x.tree.words) :
    ((TokenKind.leftParen, ([40] : Text)) :: ts ++ [(TokenKind.rightParen, ([41] : Text))]).map word = (STy.paren x).tree.words := by
  simp only [STy.tree, Lower.TSyn.words, Lower.TSyn.words.go, kw, List.map_cons, List.map_append, h, List.cons_append]
  rfl

theorem nextOK_prs (ts : List PTy) (s : Text) (h : NextOK s) : NextOK (prs ts ++ s) := by
  cases ts with
  | nil => simpa [prs] using h
  | cons => simp only [prs]; exact nextOK_cons (by decide)

theorem printed_const {ds : Defs} {t : IrTy} {x : STy} {w : Text} {k : TokenKind} (p : Nat) (hp : pr (shown ds t) p = w) (hm : (w, k) ∈ literals)
    (hw : (∀ c ∈ w, wordChar c = true) ∧ w ≠ []) (hx : x.tree.words = [(k, none)]) (hg : InPos 2 x) (h : Means ds x t) : Printed ds t p := by
  have hword : Word w := ⟨hw.1, hw.2⟩
  have hc : Lower.carries k = false := by
    have := literal_fixed hm
    cases k <;> first | rfl | exact absurd rfl this.1 | exact absurd rfl this.2.1 | exact absurd rfl this.2.2.1 | exact absurd rfl this.2.2.2.1
  subst hp
  refine ⟨x, [(k, _)], Piece.word ⟨.literal hm, fun e => ?_⟩ hword, by simp [Lexer.word, hc, hx], hg.down, h⟩
  injection e with e
  exact absurd e (literal_fixed hm).1

mutual
theorem printed {ds : Defs} (hd : ProperNames ds) : ∀ (t : IrTy) (p : Nat), p ≤ 2 → Plain ds t → Printed ds t p
  | .int, p, _, _ => printed_const (x := .int) (k := .int) p (by simp [shown, pr]; rfl) (by decide) (by decide) rfl Grammar.AtomTy.int .int
  | .bool, p, _, _ => printed_const (x := .bool) (k := .bool) p (by simp [shown, pr]; rfl) (by decide) (by decide) rfl Grammar.AtomTy.bool .bool
  | .str, p, _, _ => printed_const (x := .string) (k := .stringTy) p (by simp [shown, pr]; rfl) (by decide) (by decide) rfl Grammar.AtomTy.string .string
  | .named s args, p, hp, h => by
    obtain ⟨n, hn⟩ := Option.isSome_iff_exists.1 h.1
    have hname := hd.of s n hn
    obtain ⟨xs, ts, h1, h2, h3, h4⟩ := printeds hd args h.2
    have hnf : nameFor ds s = n := by simp [nameFor, hn]
    have hwords : (((TokenKind.ident, n) :: ts).map word) = (STy.named none n xs).tree.words := by
      simp only [STy.tree, Lower.TSyn.words, Lower.pathT, List.map_cons, h2, List.cons_append, List.nil_append, Lower.TSyn.words.go, nmT]
      rfl
    have hpiece : Piece (n ++ prs (showns ds args)) ((.ident, n) :: ts) := .app hname (name_word hname) h1 (nextOK_prs _)
    have hshape : (STy.named none n xs).tree.shape = .node .namedType ([Grammar.nm] ++ xs.map fun x => x.tree.shape) := by
      have : ∀ ys : List STy, Lower.TSyn.shape.go (STy.tree.trees ys) = ys.map fun x => x.tree.shape := by
        intro ys
        induction ys with
        | nil => rfl
        | cons y ys ih => simp [STy.tree.trees, Lower.TSyn.shape.go, ih]
      simp [STy.tree, Lower.TSyn.shape, Lower.TSyn.shape.go, Lower.pathT, nmT, Grammar.nm, this]
    have happ : InPos 1 (.named none n xs) := by
      show Grammar.AppTy _
      rw [hshape]
      exact .app .plain fun a ha => by
        obtain ⟨x, hx, rfl⟩ := List.mem_map.1 ha
        exact h3 x hx
    have hmean : Means ds (.named none n xs) (.named s args) := .named hn h4
    by_cases hb : p < 2 ∨ showns ds args = []
    · refine ⟨.named none n xs, (.ident, n) :: ts, ?_, hwords, ?_, hmean⟩
      · rw [show shown ds (.named s args) = .named n (showns ds args) by simp [shown, hnf], pr_named _ _ _ hb]; exact hpiece
      · rcases hb with hb | hb
        · match p, hb with
          | 0, _ => exact .app happ
          | 1, _ => exact happ
        · refine InPos.down ?_
          show Grammar.AtomTy _
          have hxs : xs = [] := by
            cases args with
            | nil => cases h4; rfl
            | cons => simp [showns] at hb
          rw [hshape, hxs]
          exact .named .plain
    · have hp2 : p = 2 := by
        have : ¬ p < 2 := fun e => hb (.inl e)
        omega
      have hne : showns ds args ≠ [] := fun e => hb (.inr e)
      refine ⟨.paren (.named none n xs), _, ?_, words_paren hwords, ?_, .paren hmean⟩
      · have e : pr (shown ds (.named s args)) p = [40] ++ (n ++ prs (showns ds args)) ++ [41] := by
          have : 0 < (showns ds args).length := List.length_pos_iff.2 hne
          simp [shown, hnf, pr, hp2, pushIf, this]
        rw [e]; exact hpiece.paren
      · refine InPos.down ?_
        exact Grammar.AtomTy.paren (.app happ)
  | .fn a b, p, hp, h => by
    obtain ⟨x, ts, h1, h2, h3, h4⟩ := printed hd a 1 (by decide) h.1
    obtain ⟨y, us, g1, g2, g3, g4⟩ := printed hd b 0 (by decide) h.2
    have hpiece := h1.arrow g1
    have hwords : (ts ++ (TokenKind.arrow, ([45, 62] : Text)) :: us).map word = (STy.fn x y).tree.words := by
      simp only [STy.tree, Lower.TSyn.words, Lower.TSyn.words.go, kw, List.map_append, List.map_cons, h2, g2, List.append_nil, List.cons_append, List.nil_append]
      rfl
    have hty : InPos 0 (.fn x y) := Grammar.Ty.fn h3 g3
    cases p with
    | zero => exact ⟨.fn x y, _, by simpa [shown, pr, pushIf] using hpiece, hwords, hty, .fn h4 g4⟩
    | succ p =>
      refine ⟨.paren (.fn x y), _, ?_, words_paren hwords, InPos.down (Grammar.AtomTy.paren hty), .paren (.fn h4 g4)⟩
      have := hpiece.paren
      simpa [shown, pr, pushIf] using this
  | .error, _, _, h | .infer, _, _, h | .folded _ _, _, _, h => absurd h (by simp [Plain])
theorem printeds {ds : Defs} (hd : ProperNames ds) : ∀ (as : List IrTy), Plains ds as →
    ∃ (xs : List STy) (ts : List (TokenKind × Text)), Piece (prs (showns ds as)) ts ∧ ts.map word = Lower.TSyn.words.go (STy.tree.trees xs) ∧
      (∀ x ∈ xs, Grammar.AtomTy x.tree.shape) ∧ Each (Means ds) xs as
  | [], _ => ⟨[], [], fun s us _ h => by simpa [showns, prs] using h, rfl, by simp, .nil⟩
  | a :: as, h => by
    obtain ⟨x, ts, h1, h2, h3, h4⟩ := printed hd a 2 (by decide) h.1
    obtain ⟨xs, us, g1, g2, g3, g4⟩ := printeds hd as h.2
    refine ⟨x :: xs, ts ++ us, by simp only [showns, prs]; exact h1.args g1 (nextOK_prs _), ?_, ?_, .cons h4 g4⟩
    · simp only [List.map_append, h2, g2, STy.tree.trees, Lower.TSyn.words.go]
    · intro z hz
      rcases List.mem_cons.1 hz with rfl | hz
      · exact h3
      · exact g3 z hz
end

/-- **C52**, printed types are types of the language.  The text printed for a type of this file that is completely known is
a type as the language writes them, and means that type. -/
theorem printed_reads {ds : Defs} (hd : ProperNames ds) {t : IrTy} (h : Plain ds t) :
    ∃ (x : STy) (ts : List (TokenKind × Text)), Written (printType ds [] t).1 ts ∧ ts.map word = x.tree.words ∧ Grammar.Ty x.tree.shape ∧ Means ds x t := by
  obtain ⟨x, ts, h1, h2, h3, h4⟩ := printed hd t 0 (by decide) h
  have h5 := h1 [] [] (fun c hc => by simp at hc) .nil
  rw [List.append_nil, List.append_nil] at h5
  exact ⟨x, ts, by rw [show (printType ds [] t).1 = _ from (print_pure t 0 (consistent_nil ds)).1]; exact h5, h2, h3, h4⟩

section
variable {S D I : Type}

/-- **C52**, a printed type can be used as an annotation: `let n : TYPE = 0;`, with the text printed for a type in place of
`TYPE`, has no syntax error, and its annotation is read as a type that means the printed one. -/
theorem printed_annotation {p : Phases S D I} (hp : p.Lawful) (err : Text → Nat) (os : List Nat) {ds : Defs} (hd : ProperNames ds) {t : IrTy} (h : Plain ds t)
    {n : Text} (hn : IsA (.token .ident) n) :
    ∃ x : STy, Means ds x t ∧
    ∃ before items, p.requests (rules err) ([108, 101, 116, 32] ++ n ++ [32, 58, 32] ++ (printType ds [] t).1 ++ [32, 61, 32, 48, 59]) os [] = some before ∧
      p.compileUpTo (rules err) ([108, 101, 116, 32] ++ n ++ [32, 58, 32] ++ (printType ds [] t).1 ++ [32, 61, 32, 48, 59])
        ([108, 101, 116, 32] ++ n ++ [32, 58, 32] ++ (printType ds [] t).1 ++ [32, 61, 32, 48, 59]).length before = some items ∧
      (∀ i ∈ items, p.parseErrors i = []) ∧
      Each Lower.ShowsItem (Lower.fileItems p ([108, 101, 116, 32] ++ n ++ [32, 58, 32] ++ (printType ds [] t).1 ++ [32, 61, 32, 48, 59]) items)
        [.value false n (some x) (.number [48])] := by
  obtain ⟨x, ts, h1, h2, h3, h4⟩ := printed hd t 0 (by decide) h
  refine ⟨x, h4, ?_⟩
  have e : (printType ds [] t).1 = pr (shown ds t) 0 := (print_pure t 0 (consistent_nil ds)).1
  rw [e]
  have k1 : IsA (.token .semicolon) [59] := ⟨.literal (by decide), by simp⟩
  have k2 : IsA (.token .number) [48] := ⟨.number (by decide) (by simp), by simp⟩
  have k3 : IsA (.token .equals) [61] := ⟨.literal (by decide), by simp⟩
  have k4 : IsA (.token .colon) [58] := ⟨.literal (by decide), by simp⟩
  have k5 : IsA (.token .let_) [108, 101, 116] := ⟨.literal (by decide), by simp⟩
  have w1 : Written [59] [(.semicolon, [59])] := .token k1 .eof .nil
  have hnum : Ends [48] [59] := .word ⟨by decide, by simp⟩ (by decide)
  have w2 : Written [32, 61, 32, 48, 59] [(.equals, [61]), (.number, [48]), (.semicolon, [59])] :=
    .space (.token (w := [61]) k3 (.blank (by decide)) (.space (.token (w := [48]) k2 hnum w1)))
  have w3 := h1 _ _ (nextOK_cons (by decide)) w2
  have w4 := Written.token k5 (.blank (by decide)) (.space (.token hn (.blank (by decide)) (.space (.token k4 (.blank (by decide)) (.space w3)))))
  refine Lexer.text_read hp err os (by simpa [List.append_assoc] using w4) ?_ ?_
  · simp only [List.map_cons, List.map_append, List.map_nil, h2, SItem.tree, Lower.optT, annT, SEx.tree, Lower.TSyn.words, Lower.words_go_append,
      Lower.TSyn.words.go, List.flatMap_cons, List.flatMap_nil, kw, nmT, List.append_nil, List.cons_append, List.nil_append, Bool.false_eq_true, if_false]
    rfl
  · intro i hi
    rw [List.mem_singleton] at hi
    rw [hi]
    have := Grammar.Item.value (x := []) .none (.some h3) (.op (.app (.atom .number)))
    exact this
end

end Tic.Print
