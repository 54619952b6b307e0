/-
Printed types can be read back.
-/
import Verif.PrintTy

namespace Tic.Print

open Tic.Unify (Symbol IrTy)
open Tic.Lexer (Text)

/-! ### Specification -/

/-- Types with names in place of symbols. -/
inductive PTy
  | int | bool | string | error | infer
  | named (n : Text) (args : List PTy)
  | fn (a b : PTy)
  | folded (a b : PTy)

/-- The name a symbol has in a file: that of its first definition. -/
def nameOf (ds : Defs) (s : Symbol) : Option Text := (ds.flatten.find? fun d => decide (d.1 = s)).map Prod.snd

/-- The name of a symbol, `???` if it has none. -/
def nameFor (ds : Defs) (s : Symbol) : Text := (nameOf ds s).getD unknown

theorem findDef_eq (ds : Defs) (s : Symbol) : findDef ds s = nameOf ds s := by
  have one : ∀ l : List (Symbol × Text), (l.findSome? fun d => if d.1 = s then some d.2 else none) = (l.find? fun d => decide (d.1 = s)).map Prod.snd := by
    intro l
    induction l with
    | nil => rfl
    | cons d l ih => by_cases h : d.1 = s <;> simp [h, ih]
  unfold findDef nameOf
  induction ds with
  | nil => rfl
  | cons l ds ih =>
    rw [List.findSome?_cons, one, ih, List.flatten_cons, List.find?_append]
    cases l.find? fun d => decide (d.1 = s) <;> rfl

mutual
/-- The type with the names its symbols have. -/
def shown (ds : Defs) : IrTy → PTy
  | .int => .int
  | .bool => .bool
  | .str => .string
  | .error => .error
  | .infer => .infer
  | .named s args => .named (nameFor ds s) (showns ds args)
  | .fn a b => .fn (shown ds a) (shown ds b)
  | .folded a b => .folded (shown ds a) (shown ds b)
def showns (ds : Defs) : List IrTy → List PTy
  | [] => []
  | t :: ts => shown ds t :: showns ds ts
end

/-- The cache holds what is looked up. -/
def Consistent (ds : Defs) (c : Cache) : Prop := ∀ s n, c.lookup s = some n → nameOf ds s = some n

/-! ### The cache does not matter -/

mutual
/-- Printing without a cache. -/
def pr : PTy → Nat → Text
  | .int, _ => [105, 110, 116]
  | .bool, _ => [98, 111, 111, 108]
  | .string, _ => [115, 116, 114, 105, 110, 103]
  | .error, _ => [63]
  | .infer, _ => [95]
  | .named n a, p => pushIf (2 ≤ p && 0 < a.length) 40 ++ n ++ prs a ++ pushIf (2 ≤ p && 0 < a.length) 41
  | .fn a b, p => pushIf (1 ≤ p) 40 ++ pr a 1 ++ [32, 45, 62, 32] ++ pr b 0 ++ pushIf (1 ≤ p) 41
  | .folded a b, _ => [123] ++ pr a 0 ++ [32, 61, 62, 32] ++ pr b 0 ++ [125]
def prs : List PTy → Text
  | [] => []
  | t :: ts => 32 :: pr t 2 ++ prs ts
end

theorem consistent_nil (ds : Defs) : Consistent ds [] := fun s n h => by simp at h

theorem lookup_ok {ds : Defs} {c : Cache} (h : Consistent ds c) (s : Symbol) :
    (lookupName ds c s).1 = nameFor ds s ∧ Consistent ds (lookupName ds c s).2 := by
  unfold lookupName nameFor
  split
  · rename_i n hn; rw [h s n hn]; exact ⟨rfl, h⟩
  · split
    · rename_i hd; rw [findDef_eq] at hd; rw [hd]; exact ⟨rfl, h⟩
    · rename_i n hd
      rw [findDef_eq] at hd
      rw [hd]
      refine ⟨rfl, fun s' n' h' => ?_⟩
      by_cases e : s' == s
      · rw [List.lookup_cons, e] at h'
        cases h'
        rw [beq_iff_eq.1 e]; exact hd
      · rw [List.lookup_cons, Bool.eq_false_iff.2 e] at h'
        exact h s' n' h'

theorem showns_length (ds : Defs) : ∀ ts, (showns ds ts).length = ts.length
  | [] => rfl
  | t :: ts => by simp [showns, showns_length ds ts]

mutual
theorem print_pure {ds : Defs} : ∀ (t : IrTy) (p : Nat) {c : Cache}, Consistent ds c →
    (printPrec ds c t p).1 = pr (shown ds t) p ∧ Consistent ds (printPrec ds c t p).2
  | .int, _, _, h | .bool, _, _, h | .str, _, _, h | .error, _, _, h | .infer, _, _, h => by
    simp only [printPrec, shown, pr]; exact ⟨trivial, h⟩
  | .named s args, p, _, h => by
    obtain ⟨h1, h2⟩ := lookup_ok h s
    obtain ⟨h3, h4⟩ := printArgs_pure args h2
    simp only [printPrec, shown, pr, h1, h3, showns_length]
    exact ⟨trivial, h4⟩
  | .fn a b, p, _, h => by
    obtain ⟨h1, h2⟩ := print_pure a 1 h
    obtain ⟨h3, h4⟩ := print_pure b 0 h2
    simp only [printPrec, shown, pr, h1, h3]
    exact ⟨trivial, h4⟩
  | .folded a b, p, _, h => by
    obtain ⟨h1, h2⟩ := print_pure a 0 h
    obtain ⟨h3, h4⟩ := print_pure b 0 h2
    simp only [printPrec, shown, pr, h1, h3]
    exact ⟨trivial, h4⟩
theorem printArgs_pure {ds : Defs} : ∀ (ts : List IrTy) {c : Cache}, Consistent ds c →
    (printArgs ds c ts).1 = prs (showns ds ts) ∧ Consistent ds (printArgs ds c ts).2
  | [], _, h => by simp only [printArgs, showns, prs]; exact ⟨trivial, h⟩
  | t :: ts, _, h => by
    obtain ⟨h1, h2⟩ := print_pure t 2 h
    obtain ⟨h3, h4⟩ := printArgs_pure ts h2
    simp only [printArgs, showns, prs, h1, h3]
    exact ⟨trivial, h4⟩
end

/-! ### A reader for printed types -/

/-- Not a space and not a bracket. -/
def plainChar (c : UInt8) : Bool := !(c == 32 || c == 40 || c == 41 || c == 123 || c == 125)

/-- The type a word stands for. -/
def wordTy (w : Text) : PTy :=
  if w = [105, 110, 116] then .int else if w = [98, 111, 111, 108] then .bool else if w = [115, 116, 114, 105, 110, 103] then .string
  else if w = [63] then .error else if w = [95] then .infer else .named w []

/-- The text after a prefix. -/
def after (p : Text) (s : Text) : Option Text := if p.isPrefixOf s then some (s.drop p.length) else none

mutual
/-- Reads a word or something in brackets. -/
def readAtom : Nat → Text → Option (PTy × Text)
  | 0, _ => none
  | f + 1, s =>
    match after [40] s with
    | some s => do
      let (t, r) ← readTy f s
      let r ← after [41] r
      some (t, r)
    | none => match after [123] s with
      | some s => do
        let (a, r) ← readTy f s
        let r ← after [32, 61, 62, 32] r
        let (b, r) ← readTy f r
        let r ← after [125] r
        some (.folded a b, r)
      | none => some (wordTy (s.takeWhile plainChar), s.dropWhile plainChar)
/-- Reads a word with arguments. -/
def readApp : Nat → Text → Option (PTy × Text)
  | 0, _ => none
  | f + 1, s => do
    let (t, r) ← readAtom f s
    match t with
    | .named n [] => do
      let (as, r) ← readArgs f r
      some (.named n as, r)
    | t => some (t, r)
/-- Reads arguments. -/
def readArgs : Nat → Text → Option (List PTy × Text)
  | 0, _ => none
  | f + 1, s =>
    match after [32] s with
    | none => some ([], s)
    | some r =>
      if r.head? = some 45 ∨ r.head? = some 61 then some ([], s) else do
      let (a, r) ← readAtom f r
      let (as, r) ← readArgs f r
      some (a :: as, r)
/-- Reads a type. -/
def readTy : Nat → Text → Option (PTy × Text)
  | 0, _ => none
  | f + 1, s => do
    let (a, r) ← readApp f s
    match after [32, 45, 62, 32] r with
    | some r => do
      let (b, r) ← readTy f r
      some (.fn a b, r)
    | none => some (a, r)
end

/-- Names that cannot be mistaken for anything else. -/
structure Clear (n : Text) : Prop where
  ne : n ≠ []
  plain : ∀ c ∈ n, plainChar c = true
  dash : n.head? ≠ some 45 ∧ n.head? ≠ some 61
  word : wordTy n = .named n []

mutual
/-- All names are clear. -/
def AllClear : PTy → Prop
  | .named n args => Clear n ∧ AllClears args
  | .fn a b => AllClear a ∧ AllClear b
  | .folded a b => AllClear a ∧ AllClear b
  | _ => True
def AllClears : List PTy → Prop
  | [] => True
  | t :: ts => AllClear t ∧ AllClears ts
end

mutual
/-- Fuel. -/
def PTy.size : PTy → Nat
  | .named _ args => sizes args + 10
  | .fn a b => a.size + b.size + 10
  | .folded a b => a.size + b.size + 10
  | _ => 10
def sizes : List PTy → Nat
  | [] => 1
  | t :: ts => t.size + sizes ts + 1
end

/-- What may follow an atom. -/
def Del (s : Text) : Prop := ∀ c, s.head? = some c → plainChar c = false
/-- What may follow a word with its arguments. -/
def EndApp (s : Text) : Prop := Del s ∧ ∀ r, after [32] s = some r → r.head? = some 45 ∨ r.head? = some 61
/-- What may follow a type. -/
def EndTy (s : Text) : Prop := EndApp s ∧ after [32, 45, 62, 32] s = none

theorem after_append (p s : Text) : after p (p ++ s) = some s := by simp [after, List.isPrefixOf_iff_prefix]

theorem word_take : ∀ {w s : Text}, (∀ c ∈ w, plainChar c = true) → Del s → (w ++ s).takeWhile plainChar = w ∧ (w ++ s).dropWhile plainChar = s
  | [], s, _, hd => by
    cases s with
    | nil => exact ⟨rfl, rfl⟩
    | cons c cs => have := hd c rfl; simp [this]
  | c :: cs, s, h, hd => by
    have hc := h c (by simp)
    have := word_take (w := cs) (fun c hc => h c (by simp [hc])) hd
    simp [hc, this.1, this.2]

theorem after_head {b : UInt8} {s : Text} : after [b] s = none ↔ s.head? ≠ some b := by
  cases s with
  | nil => simp [after]
  | cons c cs =>
    simp only [after, List.isPrefixOf_cons₂, List.isPrefixOf_nil_left, Bool.and_true, beq_iff_eq, List.head?_cons, ne_eq, Option.some.injEq]
    constructor
    · intro h e; rw [if_pos e.symm] at h; cases h
    · intro h; rw [if_neg fun e => h e.symm]

/-- A word. -/
theorem read_word {w s : Text} (f : Nat) (hne : w ≠ []) (hp : ∀ c ∈ w, plainChar c = true) (hd : Del s) : readAtom (f + 1) (w ++ s) = some (wordTy w, s) := by
  have hw := word_take hp hd
  cases w with
  | nil => exact absurd rfl hne
  | cons c cs =>
    have hc := hp c (by simp)
    have h1 : after [40] (c :: cs ++ s) = none := after_head.2 (by intro e; simp at e; rw [e] at hc; exact absurd hc (by decide))
    have h2 : after [123] (c :: cs ++ s) = none := after_head.2 (by intro e; simp at e; rw [e] at hc; exact absurd hc (by decide))
    simp only [readAtom, h1, h2]
    rw [hw.1, hw.2]

theorem del_cons {c : UInt8} {s : Text} (h : plainChar c = false) : Del (c :: s) := fun d hd => by
  have : d = c := by simpa using hd.symm
  rw [this]; exact h

theorem endTy_cons {c : UInt8} {s : Text} (h : plainChar c = false) (h' : c ≠ 32) : EndTy (c :: s) := by
  have hn : ∀ p, after (32 :: p) (c :: s) = none := fun p => by
    simp [after, Ne.symm h']
  exact ⟨⟨del_cons h, fun r hr => by rw [hn] at hr; cases hr⟩, hn _⟩

/-! ### Putting readers together -/

theorem ty_of_app {f : Nat} {x s : Text} {t : PTy} (h : readApp f x = some (t, s)) (hs : EndTy s) : readTy (f + 1) x = some (t, s) := by
  simp [readTy, h, hs.2]

theorem atom_of_ty {f : Nat} {x s : Text} {t : PTy} (h : readTy f (x ++ 41 :: s) = some (t, 41 :: s)) : readAtom (f + 1) (40 :: x ++ 41 :: s) = some (t, s) := by
  have h1 : after [40] (40 :: x ++ 41 :: s) = some (x ++ 41 :: s) := after_append [40] _
  have h2 : after [41] (41 :: s) = some s := after_append [41] _
  simp only [readAtom, h1]
  simp [h, h2]

theorem app_of_atom {f : Nat} {x s : Text} {t : PTy} (h : readAtom f x = some (t, s)) (ht : ∀ n, t ≠ .named n []) : readApp (f + 1) x = some (t, s) := by
  simp only [readApp, h]
  cases t with
  | named n args =>
    cases args with
    | nil => exact absurd rfl (ht n)
    | cons => rfl
  | _ => rfl

theorem app_of_args {f : Nat} {n s : Text} {args : List PTy} (hn : Clear n) (hd : Del (prs args ++ s)) (h : readArgs (f + 1) (prs args ++ s) = some (args, s)) :
    readApp (f + 2) (n ++ prs args ++ s) = some (.named n args, s) := by
  have h1 := read_word f hn.ne hn.plain hd
  rw [hn.word] at h1
  rw [List.append_assoc]
  simp only [readApp, h1]
  simp [h]

theorem ty_of_fn {f : Nat} {x y s : Text} {a b : PTy} (h : readApp f (x ++ [32, 45, 62, 32] ++ y ++ s) = some (a, [32, 45, 62, 32] ++ (y ++ s)))
    (h' : readTy f (y ++ s) = some (b, s)) : readTy (f + 1) (x ++ [32, 45, 62, 32] ++ y ++ s) = some (.fn a b, s) := by
  have h1 : after [32, 45, 62, 32] ([32, 45, 62, 32] ++ (y ++ s)) = some (y ++ s) := after_append _ _
  generalize [32, 45, 62, 32] ++ (y ++ s) = z at h h1
  simp only [readTy, h]
  simp [h1, h']

theorem atom_of_folded {f : Nat} {x y s : Text} {a b : PTy} (h : readTy f (x ++ ([32, 61, 62, 32] ++ (y ++ ([125] ++ s)))) = some (a, [32, 61, 62, 32] ++ (y ++ ([125] ++ s))))
    (h' : readTy f (y ++ ([125] ++ s)) = some (b, [125] ++ s)) : readAtom (f + 1) ([123] ++ x ++ [32, 61, 62, 32] ++ y ++ [125] ++ s) = some (.folded a b, s) := by
  rw [show [123] ++ x ++ [32, 61, 62, 32] ++ y ++ [125] ++ s = [123] ++ (x ++ ([32, 61, 62, 32] ++ (y ++ ([125] ++ s)))) by simp [List.append_assoc]]
  have h0 : after [40] ([123] ++ (x ++ ([32, 61, 62, 32] ++ (y ++ ([125] ++ s))))) = none := after_head.2 (by simp)
  have h1 := after_append [123] (x ++ ([32, 61, 62, 32] ++ (y ++ ([125] ++ s))))
  have h2 := after_append [32, 61, 62, 32] (y ++ ([125] ++ s))
  have h3 := after_append [125] s
  simp only [readAtom, h0, h1]
  generalize [32, 61, 62, 32] ++ (y ++ ([125] ++ s)) = z at *
  generalize [125] ++ s = z' at *
  simp [h, h2, h', h3]

theorem head_append {x s : Text} {c : UInt8} (hx : x ≠ []) : (x ++ s).head? = some c ↔ x.head? = some c := by
  cases x with
  | nil => exact absurd rfl hx
  | cons => simp

/-- How a type in argument position starts. -/
theorem head_atom {t : PTy} (h : AllClear t) (s : Text) : (pr t 2 ++ s).head? ≠ some 45 ∧ (pr t 2 ++ s).head? ≠ some 61 := by
  cases t with
  | named n args =>
    have hn : Clear n := h.1
    cases args with
    | nil =>
      have e : pr (.named n []) 2 = n := by simp [pr, pushIf, prs]
      rw [e]
      exact ⟨fun e => hn.dash.1 ((head_append hn.ne).1 e), fun e => hn.dash.2 ((head_append hn.ne).1 e)⟩
    | cons => simp [pr, pushIf]
  | fn => simp [pr, pushIf]
  | _ => simp [pr]

theorem app_end (x : Text) : EndApp ([32, 45, 62, 32] ++ x) := by
  refine ⟨del_cons (by decide), fun r hr => ?_⟩
  rw [show [32, 45, 62, 32] ++ x = [32] ++ ([45, 62, 32] ++ x) from rfl, after_append] at hr
  cases hr
  exact .inl rfl

theorem folded_end (x : Text) : EndTy ([32, 61, 62, 32] ++ x) := by
  refine ⟨⟨del_cons (by decide), fun r hr => ?_⟩, by simp [after]⟩
  rw [show [32, 61, 62, 32] ++ x = [32] ++ ([61, 62, 32] ++ x) from rfl, after_append] at hr
  cases hr
  exact .inr rfl

/-- The three readers read a type back. -/
structure ReadsBack (t : PTy) : Prop where
  atom : ∀ f s, t.size ≤ f → Del s → readAtom f (pr t 2 ++ s) = some (t, s)
  app : ∀ f s, t.size ≤ f → EndApp s → readApp f (pr t 1 ++ s) = some (t, s)
  ty : ∀ f s, t.size ≤ f → EndTy s → readTy f (pr t 0 ++ s) = some (t, s)

/-- Words, and what is bracketed by braces: printed the same everywhere. -/
theorem ReadsBack.of_atom {t : PTy} {x : Text} (h0 : 10 ≤ t.size) (hx : ∀ p, pr t p = x) (ht : ∀ n, t ≠ .named n [])
    (h : ∀ f s, t.size ≤ f + 5 → Del s → readAtom f (x ++ s) = some (t, s)) : ReadsBack t where
  atom f s hf hd := by rw [hx]; exact h f s (by omega) hd
  app f s hf hd := by
    obtain ⟨f, rfl⟩ : ∃ g, f = g + 1 := ⟨f - 1, by omega⟩
    rw [hx]; exact app_of_atom (h f s (by omega) hd.1) ht
  ty f s hf hd := by
    obtain ⟨f, rfl⟩ : ∃ g, f = g + 2 := ⟨f - 2, by omega⟩
    rw [hx]; exact ty_of_app (app_of_atom (h f s (by omega) hd.1.1) ht) hd

theorem ReadsBack.of_word {t : PTy} {x : Text} (h0 : t.size = 10) (hx : ∀ p, pr t p = x) (ht : ∀ n, t ≠ .named n [])
    (hne : x ≠ []) (hp : ∀ c ∈ x, plainChar c = true) (hw : wordTy x = t) : ReadsBack t :=
  .of_atom (Nat.le_of_eq h0.symm) hx ht fun f s hf hd => by
    obtain ⟨f, rfl⟩ : ∃ g, f = g + 1 := ⟨f - 1, by omega⟩
    rw [read_word f hne hp hd, hw]

theorem pr_named (n : Text) (args : List PTy) (p : Nat) (h : p < 2 ∨ args = []) : pr (.named n args) p = n ++ prs args := by
  have : (decide (2 ≤ p) && decide (0 < args.length)) = false := by
    rcases h with h | h
    · simp; omega
    · simp [h]
  simp [pr, this, pushIf]

mutual
theorem reads_back : ∀ t : PTy, AllClear t → ReadsBack t
  | .int, _ => .of_word rfl (fun _ => by simp [pr]; rfl) (by simp) (by simp) (by decide) rfl
  | .bool, _ => .of_word rfl (fun _ => by simp [pr]; rfl) (by simp) (by simp) (by decide) rfl
  | .string, _ => .of_word rfl (fun _ => by simp [pr]; rfl) (by simp) (by simp) (by decide) rfl
  | .error, _ => .of_word rfl (fun _ => by simp [pr]; rfl) (by simp) (by simp) (by decide) rfl
  | .infer, _ => .of_word rfl (fun _ => by simp [pr]; rfl) (by simp) (by simp) (by decide) rfl
  | .folded a b, h => by
    have ha := reads_back a h.1
    have hb := reads_back b h.2
    refine .of_atom (x := [123] ++ pr a 0 ++ [32, 61, 62, 32] ++ pr b 0 ++ [125]) (by simp [PTy.size]) (fun _ => by simp only [pr]) (by simp) fun f s hf hd => ?_
    simp only [PTy.size] at hf
    obtain ⟨f, rfl⟩ : ∃ g, f = g + 1 := ⟨f - 1, by omega⟩
    refine atom_of_folded ?_ (hb.ty f _ (by omega) (endTy_cons (by decide) (by decide)))
    exact ha.ty f ([32, 61, 62, 32] ++ (pr b 0 ++ ([125] ++ s))) (by omega) (folded_end _)
  | .named n args, h => by
    have hn : Clear n := h.1
    have hr := read_args args h.2
    have hdel : ∀ s, Del s → Del (prs args ++ s) := fun s hs => by
      cases args with
      | nil => simpa [prs] using hs
      | cons => simp only [prs]; exact del_cons (by decide)
    have happ : ∀ f s, sizes args + 8 ≤ f → EndApp s → readApp f (n ++ prs args ++ s) = some (.named n args, s) := fun f s hf hs => by
      obtain ⟨f, rfl⟩ : ∃ g, f = g + 2 := ⟨f - 2, by omega⟩
      exact app_of_args hn (hdel s hs.1) (hr _ s (by omega) hs)
    have hty : ∀ f s, sizes args + 9 ≤ f → EndTy s → readTy f (n ++ prs args ++ s) = some (.named n args, s) := fun f s hf hs => by
      obtain ⟨f, rfl⟩ : ∃ g, f = g + 1 := ⟨f - 1, by omega⟩
      exact ty_of_app (happ f s (by omega) hs.1) hs
    refine ⟨fun f s hf hs => ?_, fun f s hf hs => ?_, fun f s hf hs => ?_⟩
    · simp only [PTy.size] at hf
      obtain ⟨f, rfl⟩ : ∃ g, f = g + 1 := ⟨f - 1, by omega⟩
      cases args with
      | nil =>
        rw [pr_named n [] 2 (.inr rfl)]
        simp only [prs, List.append_nil]
        rw [read_word f hn.ne hn.plain hs, hn.word]
      | cons a as =>
        have e : pr (.named n (a :: as)) 2 ++ s = 40 :: (n ++ prs (a :: as)) ++ 41 :: s := by simp [pr, pushIf]
        rw [e]
        exact atom_of_ty (hty f (41 :: s) (by omega) (endTy_cons (by decide) (by decide)))
    · simp only [PTy.size] at hf
      rw [pr_named n args 1 (.inl (by decide))]
      exact happ f s (by omega) hs
    · simp only [PTy.size] at hf
      rw [pr_named n args 0 (.inl (by decide))]
      exact hty f s (by omega) hs
  | .fn a b, h => by
    have ha := reads_back a h.1
    have hb := reads_back b h.2
    have hty : ∀ f s, a.size + b.size + 5 ≤ f → EndTy s → readTy f (pr a 1 ++ [32, 45, 62, 32] ++ pr b 0 ++ s) = some (.fn a b, s) := fun f s hf hs => by
      obtain ⟨f, rfl⟩ : ∃ g, f = g + 1 := ⟨f - 1, by omega⟩
      refine ty_of_fn ?_ (hb.ty f s (by omega) hs)
      rw [show pr a 1 ++ [32, 45, 62, 32] ++ pr b 0 ++ s = pr a 1 ++ ([32, 45, 62, 32] ++ (pr b 0 ++ s)) by simp [List.append_assoc]]
      exact ha.app f ([32, 45, 62, 32] ++ (pr b 0 ++ s)) (by omega) (app_end _)
    have hatom : ∀ f s, a.size + b.size + 6 ≤ f → readAtom f (40 :: (pr a 1 ++ [32, 45, 62, 32] ++ pr b 0) ++ 41 :: s) = some (.fn a b, s) := fun f s hf => by
      obtain ⟨f, rfl⟩ : ∃ g, f = g + 1 := ⟨f - 1, by omega⟩
      exact atom_of_ty (hty f (41 :: s) (by omega) (endTy_cons (by decide) (by decide)))
    have e : ∀ p s, 1 ≤ p → pr (.fn a b) p ++ s = 40 :: (pr a 1 ++ [32, 45, 62, 32] ++ pr b 0) ++ 41 :: s := fun p s hp => by simp [pr, pushIf, hp]
    refine ⟨fun f s hf hs => ?_, fun f s hf hs => ?_, fun f s hf hs => ?_⟩
    · simp only [PTy.size] at hf
      rw [e 2 s (by decide)]; exact hatom f s (by omega)
    · simp only [PTy.size] at hf
      obtain ⟨f, rfl⟩ : ∃ g, f = g + 1 := ⟨f - 1, by omega⟩
      rw [e 1 s (by decide)]; exact app_of_atom (hatom f s (by omega)) (by simp)
    · simp only [PTy.size] at hf
      have e : pr (.fn a b) 0 ++ s = pr a 1 ++ [32, 45, 62, 32] ++ pr b 0 ++ s := by simp [pr, pushIf]
      rw [e]; exact hty f s (by omega) hs
theorem read_args : ∀ ts : List PTy, AllClears ts → ∀ f s, sizes ts ≤ f → EndApp s → readArgs f (prs ts ++ s) = some (ts, s)
  | [], _, f, s, hf, hs => by
    simp only [sizes] at hf
    obtain ⟨f, rfl⟩ : ∃ g, f = g + 1 := ⟨f - 1, by omega⟩
    simp only [prs, List.nil_append, readArgs]
    split
    · rfl
    · rename_i r hr
      rw [if_pos (hs.2 r hr)]
  | t :: ts, h, f, s, hf, hs => by
    simp only [sizes] at hf
    obtain ⟨f, rfl⟩ : ∃ g, f = g + 1 := ⟨f - 1, by omega⟩
    have ht := (reads_back t h.1).atom f (prs ts ++ s) (by omega) (by
      cases ts with
      | nil => simpa [prs] using hs.1
      | cons => simp only [prs]; exact del_cons (by decide))
    have hts := read_args ts h.2 f s (by omega) hs
    have h1 : after [32] (prs (t :: ts) ++ s) = some (pr t 2 ++ (prs ts ++ s)) := by
      have := after_append [32] (pr t 2 ++ (prs ts ++ s))
      simpa [prs] using this
    have h2 := head_atom h.1 (prs ts ++ s)
    simp only [readArgs, h1]
    rw [if_neg (fun e => e.elim h2.1 h2.2)]
    simp [ht, hts]
end

/-- Equal texts come from equal types. -/
theorem pr_inj {t u : PTy} (ht : AllClear t) (hu : AllClear u) (h : pr t 0 = pr u 0) : t = u := by
  have he : EndTy [] := ⟨⟨fun c hc => by simp at hc, fun r hr => by simp [after] at hr⟩, by simp [after]⟩
  have h1 := (reads_back t ht).ty (t.size + u.size) [] (by omega) he
  have h2 := (reads_back u hu).ty (t.size + u.size) [] (by omega) he
  rw [h, h2] at h1
  injection h1 with h1
  injection h1 with h1
  exact h1.symm

end Tic.Print
