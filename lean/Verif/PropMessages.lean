/-
C61: messages tell what they are about, whatever else was reported.
-/
import Verif.Messages
import Verif.PropPrint
import Verif.PropNames

namespace Tic.Print

open Tic.Unify (Symbol IrTy)
open Tic.Lexer

/-! ### What was printed before does not matter -/

/-- The text of a message alone. -/
def alone (ds : Defs) (m : List Seg) : Text := (formatMessage ds [] m).1

/-- The name of a definition in messages: `WTF` if it has none in this file. -/
def symName (ds : Defs) (s : Symbol) : Text := (nameOf ds s).getD [87, 84, 70]

/-- Segment by segment. -/
def segText (ds : Defs) : Seg → Text
  | .str t => t
  | .num n => numText n
  | .ty t => pr (shown ds t) 0
  | .sym s => symName ds s

theorem format_pure {ds : Defs} : ∀ (m : List Seg) {c : Cache}, Consistent ds c →
    (formatMessage ds c m).1 = m.flatMap (segText ds) ∧ Consistent ds (formatMessage ds c m).2
  | [], _, h => ⟨rfl, h⟩
  | .str t :: r, _, h => by
    obtain ⟨a, b⟩ := format_pure r h
    exact ⟨by simp [formatMessage, segText, a], b⟩
  | .num t :: r, _, h => by
    obtain ⟨a, b⟩ := format_pure r h
    exact ⟨by simp [formatMessage, segText, a], b⟩
  | .ty t :: r, c, h => by
    obtain ⟨a, b⟩ := print_pure t 0 h
    obtain ⟨a', b'⟩ := format_pure r b
    exact ⟨by simp only [formatMessage, printType, a, a', List.flatMap_cons, segText], b'⟩
  | .sym s :: r, _, h => by
    obtain ⟨a, b⟩ := format_pure r h
    refine ⟨?_, b⟩
    simp only [formatMessage, findDef_eq, a, List.flatMap_cons, segText, symName]
    cases nameOf ds s <;> rfl

theorem alone_eq (ds : Defs) (m : List Seg) : alone ds m = m.flatMap (segText ds) := (format_pure m (consistent_nil ds)).1

theorem formatAll_pure {ds : Defs} : ∀ (ms : List (List Seg)) {c : Cache}, Consistent ds c →
    (formatAll ds c ms).1 = ms.map (alone ds) ∧ Consistent ds (formatAll ds c ms).2
  | [], _, h => ⟨rfl, h⟩
  | m :: ms, _, h => by
    obtain ⟨a, b⟩ := format_pure m h
    obtain ⟨a', b'⟩ := formatAll_pure ms b
    exact ⟨by simp only [formatAll, a, a', List.map_cons, alone_eq], b'⟩

/-- **C61**, each message is what it is alone: nothing reported before changes it; first the items' in order, then the lints. -/
theorem diagnostics_alone (ds : Defs) (items : List (List (List Seg))) (lints : List (List Seg)) :
    diagnosticTexts ds items lints = (items.flatten ++ lints).map (alone ds) := by
  have h := formatAll_pure lints (consistent_nil ds)
  simp only [diagnosticTexts, List.map_append]
  rw [(formatAll_pure items.flatten h.2).1, h.1]

/-! ### What a message says can be read off -/

mutual
/-- The definitions a type mentions. -/
def syms : IrTy → List Symbol
  | .named s as => s :: symss as
  | .fn a b => syms a ++ syms b
  | .folded a b => syms a ++ syms b
  | .int | .bool | .str | .error | .infer => []
def symss : List IrTy → List Symbol
  | [] => []
  | t :: ts => syms t ++ symss ts
end

/-- If the file has a name for the definition it is one the lexer reads as a name. -/
def Named (ds : Defs) (s : Symbol) : Prop := ∀ n, nameOf ds s = some n → IsA (.token .ident) n

/-- ... for all a type mentions, and none is `_`. -/
def NamedTy (ds : Defs) (t : IrTy) : Prop := ∀ s ∈ syms t, Named ds s ∧ nameOf ds s ≠ some [95]

/-- What a message says, in the names of the file. -/
def Msg.told (ds : Defs) : Msg IrTy Symbol Symbol → Msg PTy Text Text
  | .mismatch e a => .mismatch (shown ds e) (shown ds a)
  | .fields e a => .fields e a
  | .cannotMatch t => .cannotMatch (shown ds t)
  | .unreachable => .unreachable
  | .missing1 c => .missing1 (symName ds c)
  | .missing2 c d => .missing2 (symName ds c) (symName ds d)
  | .missing c n => .missing (symName ds c) n
  | .typeArgs t e a => .typeArgs (nameFor ds t) e a
  | .unused s => .unused (symName ds s)

/-- All a message mentions is named. -/
def Msg.Named (ds : Defs) : Msg IrTy Symbol Symbol → Prop
  | .mismatch e a => NamedTy ds e ∧ NamedTy ds a
  | .cannotMatch t => NamedTy ds t
  | .missing1 c => Print.Named ds c
  | .missing2 c d => Print.Named ds c ∧ Print.Named ds d
  | .missing c _ => Print.Named ds c
  | .typeArgs t _ _ => Print.Named ds t
  | .unused s => Print.Named ds s
  | .fields .. | .unreachable => True

mutual
theorem clear_shown_of {ds : Defs} : ∀ t, (∀ s ∈ syms t, Clear (nameFor ds s)) → AllClear (shown ds t)
  | .named s args, h => ⟨h s (by simp [syms]), clear_showns_of args fun x hx => h x (by simp [syms, hx])⟩
  | .fn a b, h => ⟨clear_shown_of a fun x hx => h x (by simp [syms, hx]), clear_shown_of b fun x hx => h x (by simp [syms, hx])⟩
  | .folded a b, h => ⟨clear_shown_of a fun x hx => h x (by simp [syms, hx]), clear_shown_of b fun x hx => h x (by simp [syms, hx])⟩
  | .int, _ | .bool, _ | .str, _ | .error, _ | .infer, _ => by simp [shown, AllClear]
theorem clear_showns_of {ds : Defs} : ∀ ts, (∀ s ∈ symss ts, Clear (nameFor ds s)) → AllClears (showns ds ts)
  | [], _ => by simp [showns, AllClears]
  | t :: ts, h => ⟨clear_shown_of t fun x hx => h x (by simp [symss, hx]), clear_showns_of ts fun x hx => h x (by simp [symss, hx])⟩
end

theorem NamedTy.clear {ds : Defs} {t : IrTy} (h : NamedTy ds t) : AllClear (shown ds t) := clear_shown_of t fun s hs => by
  unfold nameFor
  cases hd : nameOf ds s with
  | none => exact clear_unknown
  | some n => exact clear_name ((h s hs).1 n hd) fun e => (h s hs).2 (e ▸ hd)

/-- Texts of types that are the same are of the same types. -/
theorem ty_inj {ds : Defs} {t u : IrTy} (ht : NamedTy ds t) (hu : NamedTy ds u) (e : pr (shown ds t) 0 = pr (shown ds u) 0) : shown ds t = shown ds u :=
  pr_inj ht.clear hu.clear e

/-- **C52** for a file some of whose definitions have no proper name, or are called `_`: printed types are unambiguous if the names of the definitions they mention are proper. -/
theorem printed_unambiguous_of {ds : Defs} {t u : IrTy} (ht : NamedTy ds t) (hu : NamedTy ds u) (e : (printType ds [] t).1 = (printType ds [] u).1) : shown ds t = shown ds u := by
  refine ty_inj ht hu ?_
  rw [← (print_pure t 0 (consistent_nil ds)).1, ← (print_pure u 0 (consistent_nil ds)).1]
  exact e

/-- A text in which no number starts after a blank, nor at the start if `b`. -/
def calm : Bool → Text → Bool
  | _, [] => true
  | b, c :: cs => !(b && digit c) && calm (c == 32) cs

theorem calm_weak {b : Bool} {x : Text} (h : calm true x = true) : calm b x = true := by
  cases x with
  | nil => rfl
  | cons c x => cases b <;> simp_all [calm]

theorem calm_append {x y : Text} : ∀ {b : Bool}, calm b x = true → calm true y = true → calm b (x ++ y) = true := by
  induction x with
  | nil => intro b _ h; exact calm_weak h
  | cons c x ih =>
    intro b h h'
    simp only [calm, List.cons_append, Bool.and_eq_true] at h ⊢
    exact ⟨h.1, ih h.2 h'⟩

/-- A text without commas, and calm. -/
def Quiet (x : Text) : Prop := calm true x = true ∧ 44 ∉ x

theorem Quiet.append {x y : Text} (h : Quiet x) (h' : Quiet y) : Quiet (x ++ y) :=
  ⟨calm_append h.1 h'.1, by simp [h.2, h'.2]⟩

theorem Quiet.pushIf (b : Bool) {c : UInt8} (h : Quiet [c]) : Quiet (pushIf b c) := by
  cases b
  · exact ⟨rfl, by simp [Print.pushIf]⟩
  · exact h

/-- A name in a message: no blank, no comma, no digit first. -/
structure Nice (n : Text) : Prop where
  blank : 32 ∉ n
  comma : 44 ∉ n
  head : ∀ c, n.head? = some c → digit c = false

theorem calm_solid {n : Text} (h : 32 ∉ n) : calm false n = true := by
  induction n with
  | nil => rfl
  | cons c n ih =>
    have hc : (c == 32) = false := by
      simp only [beq_eq_false_iff_ne]; exact fun e => h (by simp [e])
    simp only [calm, hc, Bool.false_and, Bool.not_false, Bool.true_and]
    exact ih fun hm => h (by simp [hm])

theorem Nice.quiet {n : Text} (h : Nice n) : Quiet n := by
  refine ⟨?_, h.comma⟩
  cases n with
  | nil => rfl
  | cons c n =>
    have hc : (c == 32) = false := by
      simp only [beq_eq_false_iff_ne]; exact fun e => h.blank (by simp [e])
    simp only [calm, hc, h.head c rfl, Bool.and_false, Bool.not_false, Bool.true_and]
    exact calm_solid fun hm => h.blank (by simp [hm])

theorem nice_ident {n : Text} (h : IsA (.token .ident) n) : Nice n := by
  have hw := (name_word h).chars
  obtain ⟨b, bs, rfl, hb⟩ := name_head h
  refine ⟨fun e => absurd (hw _ e) (by decide), fun e => absurd (hw _ e) (by decide), fun c hc => ?_⟩
  cases hc
  revert hb
  exact all_bytes (p := fun b => letter b = true → digit b = false) (by decide +kernel) b

theorem Named.nice {ds : Defs} {s : Symbol} (h : Named ds s) : Nice (symName ds s) ∧ Nice (nameFor ds s) := by
  unfold symName nameFor
  cases hd : nameOf ds s with
  | none => exact ⟨⟨by decide, by decide, fun c hc => by cases hc; rfl⟩, ⟨by decide, by decide, fun c hc => by cases hc; rfl⟩⟩
  | some n => exact ⟨nice_ident (h n hd), nice_ident (h n hd)⟩

theorem quiet_of {x : Text} (h : (calm true x && !x.contains 44) = true) : Quiet x := by
  rw [Bool.and_eq_true] at h
  exact ⟨h.1, by simpa using h.2⟩

mutual
theorem quiet_pr {ds : Defs} : ∀ (t : IrTy) (p : Nat), (∀ s ∈ syms t, Nice (nameFor ds s)) → Quiet (pr (shown ds t) p)
  | .int, _, _ | .bool, _, _ | .str, _, _ | .error, _, _ | .infer, _, _ => by
    simp only [shown, pr]; exact quiet_of (by decide)
  | .named s args, p, h => by
    simp only [shown, pr]
    have h1 := (h s (by simp [syms])).quiet
    have h2 := quiet_prs args fun x hx => h x (by simp [syms, hx])
    exact (((Quiet.pushIf _ (quiet_of (by decide))).append h1).append h2).append (Quiet.pushIf _ (quiet_of (by decide)))
  | .fn a b, p, h => by
    simp only [shown, pr]
    have h1 := quiet_pr a 1 fun x hx => h x (by simp [syms, hx])
    have h2 := quiet_pr b 0 fun x hx => h x (by simp [syms, hx])
    exact ((((Quiet.pushIf _ (quiet_of (by decide))).append h1).append (quiet_of (by decide))).append h2).append (Quiet.pushIf _ (quiet_of (by decide)))
  | .folded a b, p, h => by
    simp only [shown, pr]
    have h1 := quiet_pr a 0 fun x hx => h x (by simp [syms, hx])
    have h2 := quiet_pr b 0 fun x hx => h x (by simp [syms, hx])
    exact ((((quiet_of (by decide)).append h1).append (quiet_of (by decide))).append h2).append (quiet_of (by decide))
theorem quiet_prs {ds : Defs} : ∀ (ts : List IrTy), (∀ s ∈ symss ts, Nice (nameFor ds s)) → Quiet (prs (showns ds ts))
  | [], _ => by simp only [showns, prs]; exact quiet_of (by decide)
  | t :: ts, h => by
    simp only [showns, prs]
    have h1 := quiet_pr t 2 fun x hx => h x (by simp [symss, hx])
    have h2 := quiet_prs ts fun x hx => h x (by simp [symss, hx])
    exact ((quiet_of (x := [32]) (by decide)).append h1).append h2
end

theorem NamedTy.quiet {ds : Defs} {t : IrTy} (h : NamedTy ds t) : Quiet (pr (shown ds t) 0) := quiet_pr t 0 fun s hs => (h s hs).1.nice.2

/-! Numbers -/

theorem numText_digits {n : Nat} : ∀ c ∈ numText n, digit c = true := by
  intro c hc
  obtain ⟨d, hd, rfl⟩ := List.mem_map.1 hc
  have h := (Names.decimal_spec n).2.2 d hd
  have : ∀ k, 48 ≤ k → k ≤ 57 → digit (UInt8.ofNat k) = true := by
    intro k h1 h2
    have : k = 48 ∨ k = 49 ∨ k = 50 ∨ k = 51 ∨ k = 52 ∨ k = 53 ∨ k = 54 ∨ k = 55 ∨ k = 56 ∨ k = 57 := by omega
    rcases this with rfl | rfl | rfl | rfl | rfl | rfl | rfl | rfl | rfl | rfl <;> decide
  exact this _ h.1 h.2

theorem numText_ne (n : Nat) : ∃ d ds, numText n = d :: ds ∧ digit d = true := by
  cases h : numText n with
  | nil => exact absurd (List.map_eq_nil_iff.1 h) (Names.decimal_spec n).2.1
  | cons d ds => exact ⟨d, ds, rfl, numText_digits d (by rw [h]; simp)⟩

theorem numText_inj {m n : Nat} (h : numText m = numText n) : m = n := by
  refine Names.decimal_inj ?_
  have hm := (Names.decimal_spec m).2.2
  have hn := (Names.decimal_spec n).2.2
  revert h hm hn
  unfold numText
  generalize Names.decimal m = a
  generalize Names.decimal n = b
  induction a generalizing b with
  | nil => intro h _ _; exact (List.map_eq_nil_iff.1 h.symm).symm
  | cons c a ih =>
    intro h hm hn
    cases b with
    | nil => cases h
    | cons d b =>
      injection h with h1 h2
      have e1 := hm c (by simp)
      have e2 := hn d (by simp)
      have : c.toNat = d.toNat := by
        have := congrArg UInt8.toNat h1
        simp only [UInt8.toNat_ofNat'] at this
        omega
      rw [Char.toNat_inj.1 this, ih b h2 (fun x hx => hm x (List.mem_cons_of_mem _ hx)) (fun x hx => hn x (List.mem_cons_of_mem _ hx))]

theorem num_blank (n : Nat) : 32 ∉ numText n := fun h => absurd (numText_digits _ h) (by decide)
theorem num_comma (n : Nat) : 44 ∉ numText n := fun h => absurd (numText_digits _ h) (by decide)

/-- Texts with the same first part up to a mark. -/
theorem split_at {m : UInt8} {a b x y : Text} (ha : m ∉ a) (hb : m ∉ b) (e : a ++ m :: x = b ++ m :: y) : a = b ∧ x = y := by
  induction a generalizing b with
  | nil =>
    cases b with
    | nil => simpa using e
    | cons c b => exact absurd (by simpa using (List.cons.inj e).1) fun e => hb (by simp [e])
  | cons c a ih =>
    cases b with
    | nil => exact absurd (by simpa using (List.cons.inj e).1.symm) fun e => ha (by simp [e])
    | cons c' b =>
      simp only [List.cons_append, List.cons.injEq] at e
      obtain ⟨rfl, e⟩ := e
      obtain ⟨h1, h2⟩ := ih (fun h => ha (by simp [h])) (fun h => hb (by simp [h])) e
      exact ⟨by rw [h1], h2⟩

/-! The messages -/

/-- The text of what a message says. -/
def text : Msg PTy Text Text → Text
  | .mismatch e a => lit "expected" ++ 32 :: (pr e 0 ++ 44 :: (lit " got " ++ pr a 0))
  | .fields e a => lit "expected" ++ 32 :: (numText e ++ 32 :: (lit "fields, got " ++ numText a))
  | .cannotMatch t => lit "cannot" ++ 32 :: (lit "match on " ++ pr t 0)
  | .unreachable => lit "unreachable" ++ 32 :: lit "pattern"
  | .missing1 c => lit "pattern" ++ 32 :: (c ++ 32 :: lit "not covered")
  | .missing2 c d => lit "patterns" ++ 32 :: (c ++ 32 :: (lit "and " ++ (d ++ 32 :: lit "not covered")))
  | .missing c n => lit "patterns" ++ 32 :: (c ++ 32 :: (lit "and " ++ (numText n ++ 32 :: lit "more not covered")))
  | .typeArgs t e a => t ++ 32 :: (lit "expects " ++ (numText e ++ 32 :: (lit "type arguments, got " ++ numText a)))
  | .unused s => s ++ 32 :: lit "is never used"

theorem alone_text (ds : Defs) (m : Msg IrTy Symbol Symbol) : alone ds m.segs = text (m.told ds) := by
  rw [alone_eq]
  cases m <;> simp [Msg.segs, Msg.told, text, segText, lit, shown, showns, pr, prs, Print.pushIf]

/-- What is known of the parts of a message. -/
def Fine : Msg PTy Text Text → Prop
  | .mismatch e a => Quiet (pr e 0) ∧ Quiet (pr a 0) ∧ AllClear e ∧ AllClear a
  | .cannotMatch t => AllClear t
  | .missing1 c => Nice c
  | .missing2 c d => Nice c ∧ Nice d
  | .missing c _ => Nice c
  | .typeArgs t _ _ => Nice t
  | .unused s => Nice s
  | .fields .. | .unreachable => True

theorem Msg.Named.fine {ds : Defs} {m : Msg IrTy Symbol Symbol} (h : m.Named ds) : Fine (m.told ds) := by
  cases m with
  | mismatch e a => exact ⟨NamedTy.quiet h.1, NamedTy.quiet h.2, h.1.clear, h.2.clear⟩
  | cannotMatch t => exact NamedTy.clear h
  | missing1 c => exact (Print.Named.nice h).1
  | missing2 c d => exact ⟨(Print.Named.nice h.1).1, (Print.Named.nice h.2).1⟩
  | missing c n => exact (Print.Named.nice h).1
  | typeArgs t e a => exact (Print.Named.nice h).2
  | unused s => exact (Print.Named.nice h).1
  | fields | unreachable => trivial

/-- Kinds of messages in some order. -/
def rank {T S K : Type} : Msg T S K → Nat
  | .mismatch .. => 0
  | .fields .. => 1
  | .cannotMatch .. => 2
  | .unreachable => 3
  | .missing1 .. => 4
  | .missing2 .. => 5
  | .missing .. => 6
  | .typeArgs .. => 7
  | .unused .. => 8

/-- A number does not start like a word of the messages. -/
theorem num_head {n : Nat} {c : UInt8} {x y : Text} (hc : digit c = false) : numText n ++ x ≠ c :: y := by
  obtain ⟨d, ds, e, hd⟩ := numText_ne n
  rw [e]
  intro h
  rw [(List.cons.inj h).1, hc] at hd
  cases hd

theorem nice_head {n : Text} (h : Nice n) {k : Nat} {x y : Text} : n ++ 32 :: x ≠ numText k ++ 32 :: y := by
  intro e
  obtain ⟨d, ds, e1, hd⟩ := numText_ne k
  have := (split_at h.blank (num_blank k) e).1
  rw [this] at h
  rw [h.head d (by rw [e1]; rfl)] at hd
  cases hd

theorem text_inj_le : ∀ {m m' : Msg PTy Text Text}, Fine m → Fine m' → rank m ≤ rank m' → text m = text m' → m = m' := by
  intro m m' h h' hr e
  have fixed : ∀ {a b : Text} {x y : Text}, 32 ∉ a → 32 ∉ b → a ≠ b → a ++ 32 :: x ≠ b ++ 32 :: y := fun ha hb hne e => hne (split_at ha hb e).1
  have rest : ∀ {a : Text} {x y : Text}, a ++ 32 :: x = a ++ 32 :: y → x = y := fun e => by simpa using e
  cases m with
  | mismatch t u =>
    cases m' with
    | mismatch t' u' =>
      obtain ⟨q1, q2⟩ := split_at h.1.2 h'.1.2 (rest e)
      rw [pr_inj h.2.2.1 h'.2.2.1 q1, pr_inj h.2.2.2 h'.2.2.2 (List.append_cancel_left q2)]
    | fields a b =>
      exfalso
      have q := rest e
      obtain ⟨d, ds, e1, hd⟩ := numText_ne a
      have hq := h.1.1
      cases hx : pr t 0 with
      | nil => rw [hx, e1] at q; rw [← (List.cons.inj q).1] at hd; exact absurd hd (by decide)
      | cons c cs =>
        rw [hx, e1] at q
        rw [hx] at hq
        rw [(List.cons.inj q).1] at hq
        simp only [calm, hd, Bool.and_self, Bool.not_true, Bool.false_and] at hq
        cases hq
    | typeArgs k a b =>
      exfalso
      obtain ⟨-, q⟩ := split_at (by decide) h'.blank e
      have e2 : lit "expects " ++ (numText a ++ 32 :: (lit "type arguments, got " ++ numText b)) = (lit "expects " ++ numText a ++ lit " type arguments") ++ 44 :: (lit " got " ++ numText b) := by
        simp [lit]
      rw [e2] at q
      obtain ⟨q, -⟩ := split_at h.1.2 (by simp only [List.mem_append, not_or]; exact ⟨⟨by decide, num_comma a⟩, by decide⟩) q
      have hq := h.1.1
      rw [q] at hq
      obtain ⟨d, ds, e1, hd⟩ := numText_ne a
      rw [e1] at hq
      have : calm true (lit "expects " ++ d :: ds ++ lit " type arguments") = calm true (101 :: 120 :: 112 :: 101 :: 99 :: 116 :: 115 :: 32 :: d :: (ds ++ lit " type arguments")) := by simp [lit]
      rw [this] at hq
      simp [calm, hd] at hq
    | unused s =>
      exfalso
      obtain ⟨-, q⟩ := split_at (by decide) h'.blank e
      have : (44 : UInt8) ∈ lit "is never used" := by rw [← q]; simp
      exact absurd this (by decide)
    | _ => first | exact absurd e (fixed (by decide) (by decide) (by decide))
  | fields a b =>
    cases m' with
    | mismatch => exact absurd hr (by simp [rank])
    | fields a' b' =>
      obtain ⟨q1, q2⟩ := split_at (num_blank a) (num_blank a') (rest e)
      rw [numText_inj q1, numText_inj (List.append_cancel_left q2)]
    | typeArgs k a b =>
      obtain ⟨-, q⟩ := split_at (by decide) h'.blank e
      exact absurd q (num_head (c := 101) (by decide))
    | unused s =>
      obtain ⟨-, q⟩ := split_at (by decide) h'.blank e
      exact absurd q (num_head (c := 105) (by decide))
    | _ => first | exact absurd e (fixed (by decide) (by decide) (by decide))
  | cannotMatch t =>
    cases m' with
    | mismatch | fields => exact absurd hr (by simp [rank])
    | cannotMatch t' =>
      rw [pr_inj h h' (List.append_cancel_left (rest e))]
    | typeArgs k a b =>
      obtain ⟨-, q⟩ := split_at (by decide) h'.blank e
      exact absurd (List.cons.inj q).1 (by decide)
    | unused s =>
      obtain ⟨-, q⟩ := split_at (by decide) h'.blank e
      exact absurd (List.cons.inj q).1 (by decide)
    | _ => first | exact absurd e (fixed (by decide) (by decide) (by decide))
  | unreachable =>
    cases m' with
    | mismatch | fields | cannotMatch => exact absurd hr (by simp [rank])
    | unreachable => rfl
    | typeArgs k a b =>
      obtain ⟨-, q⟩ := split_at (by decide) h'.blank e
      exact absurd (List.cons.inj q).1 (by decide)
    | unused s =>
      obtain ⟨-, q⟩ := split_at (by decide) h'.blank e
      exact absurd (List.cons.inj q).1 (by decide)
    | _ => first | exact absurd e (fixed (by decide) (by decide) (by decide))
  | missing1 c =>
    cases m' with
    | mismatch | fields | cannotMatch | unreachable => exact absurd hr (by simp [rank])
    | missing1 c' => rw [(split_at h.blank h'.blank (rest e)).1]
    | typeArgs k a b =>
      obtain ⟨-, q⟩ := split_at (by decide) h'.blank e
      obtain ⟨-, q⟩ := split_at (b := lit "expects") h.blank (by decide) q
      exact absurd q.symm (num_head (c := 110) (by decide))
    | unused s =>
      obtain ⟨-, q⟩ := split_at (by decide) h'.blank e
      obtain ⟨-, q⟩ := split_at (b := lit "is") (y := lit "never used") h.blank (by decide) q
      exact absurd q (by decide)
    | _ => first | exact absurd e (fixed (by decide) (by decide) (by decide))
  | missing2 c d =>
    cases m' with
    | mismatch | fields | cannotMatch | unreachable | missing1 => exact absurd hr (by simp [rank])
    | missing2 c' d' =>
      obtain ⟨q1, q2⟩ := split_at h.1.blank h'.1.blank (rest e)
      rw [q1, (split_at h.2.blank h'.2.blank (List.append_cancel_left q2)).1]
    | missing c' n =>
      obtain ⟨-, q2⟩ := split_at h.1.blank h'.blank (rest e)
      exact absurd (List.append_cancel_left q2) (nice_head h.2)
    | typeArgs k a b =>
      obtain ⟨-, q⟩ := split_at (by decide) h'.blank e
      obtain ⟨-, q⟩ := split_at (b := lit "expects") h.1.blank (by decide) q
      exact absurd q.symm (num_head (c := 97) (by decide))
    | unused s =>
      obtain ⟨-, q⟩ := split_at (by decide) h'.blank e
      obtain ⟨-, q⟩ := split_at (b := lit "is") (y := lit "never used") h.1.blank (by decide) q
      exact absurd (List.cons.inj q).1 (by decide)
  | missing c n =>
    cases m' with
    | mismatch | fields | cannotMatch | unreachable | missing1 | missing2 => exact absurd hr (by simp [rank])
    | missing c' n' =>
      obtain ⟨q1, q2⟩ := split_at h.blank h'.blank (rest e)
      rw [q1, numText_inj (split_at (num_blank n) (num_blank n') (List.append_cancel_left q2)).1]
    | typeArgs k a b =>
      obtain ⟨-, q⟩ := split_at (by decide) h'.blank e
      obtain ⟨-, q⟩ := split_at (b := lit "expects") h.blank (by decide) q
      exact absurd q.symm (num_head (c := 97) (by decide))
    | unused s =>
      obtain ⟨-, q⟩ := split_at (by decide) h'.blank e
      obtain ⟨-, q⟩ := split_at (b := lit "is") (y := lit "never used") h.blank (by decide) q
      exact absurd (List.cons.inj q).1 (by decide)
  | typeArgs k a b =>
    cases m' with
    | mismatch | fields | cannotMatch | unreachable | missing1 | missing2 | missing => exact absurd hr (by simp [rank])
    | typeArgs k' a' b' =>
      obtain ⟨q1, q2⟩ := split_at h.blank h'.blank e
      obtain ⟨q2, q3⟩ := split_at (num_blank a) (num_blank a') (List.append_cancel_left q2)
      rw [q1, numText_inj q2, numText_inj (List.append_cancel_left q3)]
    | unused s =>
      obtain ⟨-, q⟩ := split_at h.blank h'.blank e
      exact absurd (List.cons.inj q).1 (by decide)
  | unused s =>
    cases m' with
    | unused s' => rw [(split_at h.blank h'.blank e).1]
    | _ => exact absurd hr (by simp [rank])

/-- **C61**, messages tell what they are about: two messages of one file with the same text say the same: of the same kind, with the same types, names and numbers. -/
theorem message_tells {ds : Defs} {m m' : Msg IrTy Symbol Symbol} (h : m.Named ds) (h' : m'.Named ds) (e : alone ds m.segs = alone ds m'.segs) :
    m.told ds = m'.told ds := by
  rw [alone_text, alone_text] at e
  rcases Nat.le_total (rank (m.told ds)) (rank (m'.told ds)) with hr | hr
  · exact text_inj_le h.fine h'.fine hr e
  · exact (text_inj_le h'.fine h.fine hr e.symm).symm

/-- **C61**, constructors not covered: of up to two the message tells the names, of more the name of one and how many others there are. -/
theorem missing_tells {ds : Defs} {l l' : List Symbol} (hl : ∀ c ∈ l, Named ds c) (hl' : ∀ c ∈ l', Named ds c) {m m' : Msg IrTy Symbol Symbol}
    (h : missingMsg l = some m) (h' : missingMsg l' = some m') (e : alone ds m.segs = alone ds m'.segs) :
    l.length = l'.length ∧ (l.head?.map (symName ds) = l'.head?.map (symName ds)) ∧ (l.length ≤ 2 → l.map (symName ds) = l'.map (symName ds)) := by
  have key : ∀ {l : List Symbol} {m : Msg IrTy Symbol Symbol}, (∀ c ∈ l, Named ds c) → missingMsg l = some m →
      m.Named ds ∧ ((∃ c, l = [c] ∧ m = .missing1 c) ∨ (∃ c d, l = [c, d] ∧ m = .missing2 c d) ∨ (∃ c d x r, l = c :: d :: x :: r ∧ m = .missing c (r.length + 2))) := by
    intro l m hl h
    match l, h with
    | [c], h => cases h; exact ⟨hl c (by simp), .inl ⟨c, rfl, rfl⟩⟩
    | [c, d], h => cases h; exact ⟨⟨hl c (by simp), hl d (by simp)⟩, .inr (.inl ⟨c, d, rfl, rfl⟩)⟩
    | c :: d :: x :: r, h => cases h; exact ⟨hl c (by simp), .inr (.inr ⟨c, d, x, r, rfl, rfl⟩)⟩
  obtain ⟨n1, k1⟩ := key hl h
  obtain ⟨n2, k2⟩ := key hl' h'
  have t := message_tells n1 n2 e
  rcases k1 with ⟨c, rfl, rfl⟩ | ⟨c, d, rfl, rfl⟩ | ⟨c, d, x, r, rfl, rfl⟩ <;>
    rcases k2 with ⟨c', rfl, rfl⟩ | ⟨c', d', rfl, rfl⟩ | ⟨c', d', x', r', rfl, rfl⟩ <;>
    simp only [Msg.told, Msg.missing1.injEq, Msg.missing2.injEq, Msg.missing.injEq, reduceCtorEq] at t
  · simp [t]
  · simp [t.1, t.2]
  · simp [t.1]; omega

/-! ### Examples -/

/-- Definitions `List`, `Nil` and `Cons`. -/
def msgDefs : Defs := [[(0, lit "List"), (1, lit "Nil"), (2, lit "Cons")]]

/-- `expected int -> List int, got ???`, whatever was printed before. -/
example : Msg.Named msgDefs (.mismatch (.fn .int (.named 0 [.int])) (.named 7 [])) ∧
    diagnosticTexts msgDefs [[(Msg.missing1 2).segs], [(Msg.mismatch (.fn .int (.named 0 [.int])) (.named 7 [])).segs]] [(Msg.unused 1).segs] =
      [lit "pattern Cons not covered", lit "expected int -> List int, got ???", lit "Nil is never used"] := by
  have h0 : nameOf msgDefs 0 = some (lit "List") := by decide +kernel
  have h7 : nameOf msgDefs 7 = none := by decide +kernel
  refine ⟨⟨fun s hs => ?_, fun s hs => ?_⟩, by decide +kernel⟩
  · simp only [syms, symss, List.append_nil, List.nil_append, List.mem_singleton] at hs
    subst hs
    refine ⟨fun n hn => ?_, by rw [h0]; decide⟩
    rw [h0] at hn
    cases hn
    exact ⟨.name (by decide) (by decide), fun _ k => by cases k <;> decide⟩
  · simp only [syms, symss, List.mem_singleton] at hs
    subst hs
    exact ⟨fun n hn => absurd (h7.symm.trans hn) (by simp), by rw [h7]; simp⟩

/-- Constructors the file has no name for, as those of a module imported under a name, are all called `WTF` (finding 51). -/
theorem missing_has_no_name (ds : Defs) (c d : Symbol) (hc : nameOf ds c = none) (hd : nameOf ds d = none) :
    alone ds (Msg.missing2 c d).segs = lit "patterns WTF and WTF not covered" := by
  rw [alone_text]
  simp only [Msg.told, symName, hc, hd]
  decide

end Tic.Print
