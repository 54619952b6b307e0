import Verif.Pretty
import Verif.PropFormat
import Verif.Treewalk
import Verif.Verify
/-!
# C44: the listing of the emitted program

`CompilationUnit::emit_ir` (`/repo/ticc/src/codegen.rs:22-26`) returns `pretty_print` of the program.
-/
namespace Tic.Pretty
open Tic.Core Tic.Format

/-! ## Every name is in the table -/

mutual
/-- Every name in the type has an id below `n`. -/
def TyIn (n : Nat) : Ty → Prop
  | .named m args => m < n ∧ TysIn n args
  | .fn ps out => TysIn n ps ∧ TyIn n out
  | .abs _ t => TyIn n t
  | _ => True
def TysIn (n : Nat) : List Ty → Prop
  | [] => True
  | t :: ts => TyIn n t ∧ TysIn n ts
end

mutual
/-- Every name in the expression has an id below `n`. -/
def ExprIn (n : Nat) : Expr → Prop
  | .bool _ | .int _ | .str _ => True
  | .name m => m < n
  | .call f args => ExprIn n f ∧ ExprsIn n args
  | .intr _ args => ExprsIn n args
  | .ite a b c => ExprIn n a ∧ ExprIn n b ∧ ExprIn n c
  | .op a _ b => ExprIn n a ∧ ExprIn n b
  | .lam ps e => (∀ p ∈ ps, p.1 < n ∧ TyIn n p.2) ∧ ExprIn n e
  | .mtch e bs => ExprIn n e ∧ BranchesIn n bs
  | .con c tys xs => c < n ∧ TysIn n tys ∧ ExprsIn n xs
  | .let_ x v e => x < n ∧ ExprIn n v ∧ ExprIn n e
  | .letrec x t v e => x < n ∧ TyIn n t ∧ ExprIn n v ∧ ExprIn n e
  | .trap _ t => TyIn n t
  | .pi _ e => ExprIn n e
  | .piApp e t => ExprIn n e ∧ TyIn n t
def ExprsIn (n : Nat) : List Expr → Prop
  | [] => True
  | e :: es => ExprIn n e ∧ ExprsIn n es
def BranchesIn (n : Nat) : List Branch → Prop
  | [] => True
  | .mk c xs e :: bs => c < n ∧ (∀ x ∈ xs, x < n) ∧ ExprIn n e ∧ BranchesIn n bs
end

def DefIn (n : Nat) (d : ValueDef) : Prop := d.name < n ∧ TyIn n d.ty ∧ ExprIn n d.value

theorem writeName_in {c : Ctx} {n : Nat} (h : n < c.names.length) :
    ∃ w, writeName c n = some w := by
  simp [writeName, List.getElem?_eq_getElem h]

theorem writeCtor_in {c : Ctx} {n : Nat} (h : n < c.names.length) :
    ∃ w, writeCtor c n = some w := by
  obtain ⟨w, hw⟩ := writeName_in h
  simp [writeCtor, hw]

mutual
theorem writeTy_in (c : Ctx) : ∀ (t : Ty) (want : Prec), TyIn c.names.length t →
    ∃ w, writeTy c want t = some w
  | .bool, _, _ => by simp [writeTy]
  | .int, _, _ => by simp [writeTy]
  | .string, _, _ => by simp [writeTy]
  | .var v, _, _ => by simp [writeTy]
  | .named n args, _, h => by
    simp only [TyIn] at h
    obtain ⟨w, hw⟩ := writeName_in h.1
    obtain ⟨ws, hws⟩ := writeTyArgs_in c args h.2
    simp [writeTy, hw, hws]
  | .fn ps out, _, h => by
    simp only [TyIn] at h
    obtain ⟨w, hw⟩ := writeTy_in c out .min h.2
    obtain ⟨ws, hws⟩ := writeTyList_in c ps true h.1
    simp [writeTy, hw, hws]
  | .abs v t, _, h => by
    simp only [TyIn] at h
    obtain ⟨w, hw⟩ := writeTy_in c t .min h
    simp [writeTy, hw]
theorem writeTyArgs_in (c : Ctx) : ∀ (ts : List Ty), TysIn c.names.length ts →
    ∃ w, writeTyArgs c ts = some w
  | [], _ => by simp [writeTyArgs]
  | t :: ts, h => by
    simp only [TysIn] at h
    obtain ⟨w, hw⟩ := writeTy_in c t .atom h.1
    obtain ⟨ws, hws⟩ := writeTyArgs_in c ts h.2
    simp [writeTyArgs, hw, hws]
theorem writeTyList_in (c : Ctx) : ∀ (ts : List Ty) (first : Bool), TysIn c.names.length ts →
    ∃ w, writeTyList c first ts = some w
  | [], _, _ => by simp [writeTyList]
  | t :: ts, first, h => by
    simp only [TysIn] at h
    obtain ⟨w, hw⟩ := writeTy_in c t .min h.1
    obtain ⟨ws, hws⟩ := writeTyList_in c ts false h.2
    simp [writeTyList, hw, hws]
end

theorem writeParams_in (c : Ctx) : ∀ (ps : List (Name × Ty)) (first : Bool),
    (∀ p ∈ ps, p.1 < c.names.length ∧ TyIn c.names.length p.2) →
    ∃ w, writeParams c first ps = some w
  | [], _, _ => by simp [writeParams]
  | p :: ps, first, h => by
    have hp := h p (by simp)
    obtain ⟨w, hw⟩ := writeName_in hp.1
    obtain ⟨t, ht⟩ := writeTy_in c p.2 .min hp.2
    obtain ⟨ws, hws⟩ := writeParams_in c ps false (fun q hq => h q (List.mem_cons_of_mem _ hq))
    simp [writeParams, writeParam, hw, ht, hws]

theorem mapM_in (c : Ctx) : ∀ (xs : List Name), (∀ x ∈ xs, x < c.names.length) →
    ∃ w, xs.mapM (writeName c) = some w
  | [], _ => by simp
  | x :: xs, h => by
    obtain ⟨w, hw⟩ := writeName_in (h x (by simp))
    obtain ⟨ws, hws⟩ := mapM_in c xs (fun q hq => h q (List.mem_cons_of_mem _ hq))
    simp [List.mapM_cons, hw, hws]

mutual
theorem writeExpr_in (c : Ctx) : ∀ (e : Expr) (want : Prec), ExprIn c.names.length e →
    ∃ w, writeExpr c want e = some w
  | .bool b, _, _ => by simp [writeExpr]
  | .int b, _, _ => by simp [writeExpr]
  | .str b, _, _ => by simp [writeExpr]
  | .name n, _, h => by
    obtain ⟨w, hw⟩ := writeName_in (c := c) (by simpa [ExprIn] using h)
    simp [writeExpr, hw]
  | .call f args, _, h => by
    simp only [ExprIn] at h
    obtain ⟨w, hw⟩ := writeExpr_in c f .apply h.1
    obtain ⟨ws, hws⟩ := writeExprs_in c args true h.2
    simp [writeExpr, hw, hws]
  | .intr i args, _, h => by
    simp only [ExprIn] at h
    obtain ⟨ws, hws⟩ := writeExprs_in c args true h
    simp [writeExpr, hws]
  | .ite a b d, _, h => by
    simp only [ExprIn] at h
    obtain ⟨w1, h1⟩ := writeExpr_in c a .apply h.1
    obtain ⟨w2, h2⟩ := writeExpr_in c b .min h.2.1
    obtain ⟨w3, h3⟩ := writeExpr_in c d .min h.2.2
    simp [writeExpr, h1, h2, h3]
  | .op a o b, _, h => by
    simp only [ExprIn] at h
    obtain ⟨w1, h1⟩ := writeExpr_in c a (opPrec o).next h.1
    obtain ⟨w2, h2⟩ := writeExpr_in c b (opPrec o).next h.2
    simp [writeExpr, h1, h2]
  | .lam ps e, _, h => by
    simp only [ExprIn] at h
    obtain ⟨w1, h1⟩ := writeParams_in c ps true h.1
    obtain ⟨w2, h2⟩ := writeExpr_in c e .min h.2
    simp [writeExpr, h1, h2]
  | .mtch d bs, _, h => by
    simp only [ExprIn] at h
    obtain ⟨w1, h1⟩ := writeExpr_in c d .apply h.1
    obtain ⟨w2, h2⟩ := writeBranches_in c bs h.2
    simp [writeExpr, h1, h2]
  | .con n tys xs, _, h => by
    simp only [ExprIn] at h
    obtain ⟨w1, h1⟩ := writeCtor_in h.1
    obtain ⟨w2, h2⟩ := writeTyList_in c tys true h.2.1
    obtain ⟨w3, h3⟩ := writeExprs_in c xs true h.2.2
    simp [writeExpr, h1, h2, h3]
  | .let_ x v e, _, h => by
    simp only [ExprIn] at h
    obtain ⟨w1, h1⟩ := writeName_in h.1
    obtain ⟨w2, h2⟩ := writeExpr_in c v .min h.2.1
    obtain ⟨w3, h3⟩ := writeExpr_in c e .min h.2.2
    simp [writeExpr, h1, h2, h3]
  | .letrec x t v e, _, h => by
    simp only [ExprIn] at h
    obtain ⟨w1, h1⟩ := writeName_in h.1
    obtain ⟨w0, h0⟩ := writeTy_in c t .min h.2.1
    obtain ⟨w2, h2⟩ := writeExpr_in c v .min h.2.2.1
    obtain ⟨w3, h3⟩ := writeExpr_in c e .min h.2.2.2
    simp [writeExpr, h0, h1, h2, h3]
  | .trap m t, _, h => by
    simp only [ExprIn] at h
    obtain ⟨w0, h0⟩ := writeTy_in c t .min h
    simp [writeExpr, h0]
  | .pi v e, _, h => by
    simp only [ExprIn] at h
    obtain ⟨w0, h0⟩ := writeExpr_in c e .min h
    simp [writeExpr, h0]
  | .piApp e t, _, h => by
    simp only [ExprIn] at h
    obtain ⟨w0, h0⟩ := writeExpr_in c e .apply h.1
    obtain ⟨w1, h1⟩ := writeTy_in c t .min h.2
    simp [writeExpr, h0, h1]
theorem writeExprs_in (c : Ctx) : ∀ (es : List Expr) (first : Bool), ExprsIn c.names.length es →
    ∃ w, writeExprs c first es = some w
  | [], _, _ => by simp [writeExprs]
  | e :: es, first, h => by
    simp only [ExprsIn] at h
    obtain ⟨w, hw⟩ := writeExpr_in c e .min h.1
    obtain ⟨ws, hws⟩ := writeExprs_in c es false h.2
    simp [writeExprs, hw, hws]
theorem writeBranches_in (c : Ctx) : ∀ (bs : List Branch), BranchesIn c.names.length bs →
    ∃ w, writeBranches c bs = some w
  | [], _ => by simp [writeBranches]
  | .mk n xs e :: bs, h => by
    simp only [BranchesIn] at h
    obtain ⟨w1, h1⟩ := writeCtor_in h.1
    obtain ⟨w2, h2⟩ := mapM_in c xs h.2.1
    obtain ⟨w3, h3⟩ := writeExpr_in c e .min h.2.2.1
    obtain ⟨w4, h4⟩ := writeBranches_in c bs h.2.2.2
    simp [writeBranches, h1, h2, h3, h4]
end

theorem writeDef_in (c : Ctx) {d : ValueDef} (h : DefIn c.names.length d) :
    ∃ w, writeDef c d = some w := by
  obtain ⟨w1, h1⟩ := writeName_in h.1
  obtain ⟨w2, h2⟩ := writeTy_in c d.ty .min h.2.1
  obtain ⟨w3, h3⟩ := writeExpr_in c d.value .min h.2.2
  simp [writeDef, h1, h2, h3]

/-! ## The text of a definition, apart from blanks -/

def nameText (c : Ctx) (n : Name) : List Char := (c.names[n]?).getD [] ++ '_' :: Names.decimal n

def brackets (b : Bool) (t : List Char) : List Char := if b then '(' :: t ++ [')'] else t

/-- Types: `bool`, `int`, `string`, `t7`, `Name arg ..`, `(a, b) -> c`, `for t7 . a`.  Arguments of a named
type are bracketed unless they are one of the first four. -/
def isSimpleTy : Ty → Bool
  | .bool | .int | .string | .var _ => true
  | _ => false

mutual
def tyText (c : Ctx) : Ty → List Char
  | .bool => "bool".toList
  | .int => "int".toList
  | .string => "string".toList
  | .var v => 't' :: Names.decimal v
  | .named n args => nameText c n ++ tyArgsText c args
  | .fn ps out => '(' :: tysText c ps ++ ")->".toList ++ tyText c out
  | .abs v t => "fort".toList ++ Names.decimal v ++ '.' :: tyText c t
def tyArgsText (c : Ctx) : List Ty → List Char
  | [] => []
  | t :: ts => brackets (!isSimpleTy t) (tyText c t) ++ tyArgsText c ts
/-- Separated by commas. -/
def tysText (c : Ctx) : List Ty → List Char
  | [] => []
  | [t] => tyText c t
  | t :: u :: ts => tyText c t ++ ',' :: tysText c (u :: ts)
end

def paramText (c : Ctx) (p : Name × Ty) : List Char := nameText c p.1 ++ ':' :: tyText c p.2

def paramsText (c : Ctx) : List (Name × Ty) → List Char
  | [] => []
  | [p] => paramText c p
  | p :: q :: ps => paramText c p ++ ',' :: paramsText c (q :: ps)

/-- How tightly an expression binds: 0 for the open-ended ones, then comparisons, sums, products, and 4
for everything closed.  (Between comparisons and sums there is the place of a function being called.) -/
def tight : Expr → Nat
  | .ite _ _ _ | .lam _ _ | .mtch _ _ | .let_ _ _ _ | .letrec _ _ _ _ | .pi _ _ => 0
  | .op _ o _ =>
    match o with
    | .add | .subtract => 2
    | .multiply | .divide | .modulo => 3
    | _ => 1
  | _ => 4

/-- Fixed text. -/
@[irreducible] def lit (s : String) : List Char := s.toList

/-- Operators. -/
def opText : Op → List Char
  | .add => ['+'] | .subtract => ['-'] | .multiply => ['*'] | .divide => ['/']
  | .modulo => ['*'] -- sic
  | .less => ['<'] | .lessEq => ['<', '='] | .greater => ['>'] | .greaterEq => ['>', '=']
  | .equal => ['=', '='] | .notEqual => ['!', '=']

mutual
/-- Expressions.  The operands of an operator are bracketed unless they bind tighter; what is called,
matched on, applied to a type, or a condition, unless it binds tighter than a comparison. -/
def exprText (c : Ctx) : Expr → List Char
  | .bool b => if b then lit "true" else lit "false"
  | .int i => Names.decimal i.toNat
  | .str s => Names.showBytes s
  | .name n => nameText c n
  | .call f args => brackets (tight f ≤ 1) (exprText c f) ++ '(' :: exprsText c args ++ [')']
  | .intr i args => lit (intrName i) ++ '(' :: exprsText c args ++ [')']
  | .ite a b d => lit "if" ++ brackets (tight a ≤ 1) (exprText c a) ++ lit "then" ++ exprText c b ++
      lit "else" ++ exprText c d
  | .op a o b =>
    brackets (tight a ≤ tight (.op a o b)) (exprText c a) ++ opText o ++ brackets (tight b ≤ tight (.op a o b)) (exprText c b)
  | .lam ps e => lit "\\(" ++ paramsText c ps ++ lit ")->" ++ exprText c e
  | .mtch d bs => lit "match" ++ brackets (tight d ≤ 1) (exprText c d) ++ lit "with" ++
      branchesText c bs ++ lit "end"
  | .con n tys xs => '@' :: nameText c n ++
      (if tys.isEmpty then [] else '[' :: tysText c tys ++ [']']) ++ '(' :: exprsText c xs ++ [')']
  | .let_ x v e => lit "let" ++ nameText c x ++ '=' :: exprText c v ++ ';' :: exprText c e
  | .letrec x ty v e => lit "letrec" ++ nameText c x ++ ':' :: tyText c ty ++ '=' :: exprText c v ++
      ';' :: exprText c e
  | .trap m t => lit "#trap(" ++ c.quote m ++ ',' :: tyText c t ++ [')']
  | .pi v e => lit "Pit" ++ Names.decimal v ++ lit "->" ++ exprText c e
  | .piApp e t => brackets (tight e ≤ 1) (exprText c e) ++ '[' :: tyText c t ++ [']']
/-- Separated by commas. -/
def exprsText (c : Ctx) : List Expr → List Char
  | [] => []
  | [e] => exprText c e
  | e :: f :: es => exprText c e ++ ',' :: exprsText c (f :: es)
def branchesText (c : Ctx) : List Branch → List Char
  | [] => []
  | .mk n xs e :: bs => lit "|@" ++ nameText c n ++ xs.flatMap (nameText c) ++ lit "->" ++
      exprText c e ++ branchesText c bs
end

def defText (c : Ctx) (d : ValueDef) : List Char :=
  (match d.exportName with
    | some x => "export(".toList ++ c.quote x ++ [')']
    | none => []) ++
  "let".toList ++ nameText c d.name ++ ':' :: tyText c d.ty ++ '=' :: exprText c d.value ++ [';']

/-- The text of the tokens among the calls. -/
def callText (w : List Call) : List Char :=
  w.flatMap fun
    | .token t _ => t
    | _ => []

theorem callText_append (a b : List Call) : callText (a ++ b) = callText a ++ callText b := by
  simp [callText]
theorem callText_nil : callText [] = [] := rfl
theorem callText_tk (s : String) (w : List Call) : callText (tk s :: w) = s.toList ++ callText w := by
  simp [callText, tk]
theorem callText_stk (s : String) (k : Sticky) (w : List Call) :
    callText (stk s k :: w) = s.toList ++ callText w := by simp [callText, stk]
theorem callText_token (s : List Char) (k : Sticky) (w : List Call) :
    callText (.token s k :: w) = s ++ callText w := by simp [callText]
theorem callText_start (a b : Bool) (w : List Call) : callText (.start a b :: w) = callText w := rfl
theorem callText_finish (w : List Call) : callText (.finish :: w) = callText w := rfl
theorem callText_newline (w : List Call) : callText (.newline :: w) = callText w := rfl
theorem callText_large (w : List Call) : callText (.largeNewline :: w) = callText w := rfl

theorem lit_eq (s : String) : lit s = s.toList := by simp [lit]

attribute [local simp] lit_eq callText_append callText_nil callText_tk callText_stk callText_token callText_start
  callText_finish callText_newline callText_large

theorem callText_glue (n : Nat) : callText (glueNumber n) = Names.decimal n := by
  induction n using Nat.strongRecOn with
  | ind n ih =>
    rw [glueNumber, Names.decimal]
    by_cases h : n < 10
    · have h' : ¬ 10 ≤ n := by omega
      simp only [h, h', if_true, if_false, List.nil_append]
      rw [Nat.mod_eq_of_lt h]
      rfl
    · have h' : 10 ≤ n := by omega
      simp only [h, h', if_true, if_false, callText_append, ih (n / 10) (by omega)]
      rfl

theorem callText_number (n : Nat) : callText (writeNumber n) = Names.decimal n := by
  simp [writeNumber, callText_glue]

theorem callText_name {c : Ctx} {n : Nat} {w : List Call} (h : writeName c n = some w) :
    callText w = nameText c n := by
  unfold writeName at h
  split at h
  · rename_i s hs
    cases h
    simp [nameText, hs]
  · cases h

theorem callText_ctor {c : Ctx} {n : Nat} {w : List Call} (h : writeCtor c n = some w) :
    callText w = '@' :: nameText c n := by
  unfold writeCtor at h
  cases hn : writeName c n with
  | none => rw [hn] at h; simp at h
  | some v =>
    rw [hn] at h
    simp only [Option.bind_eq_bind, Option.bind_some, Option.pure_def, Option.some.injEq] at h
    simp [← h, callText_name hn]

theorem callText_bracket (own want : Prec) (w : List Call) :
    callText (bracket own want w) = brackets (own.rank < want.rank) (callText w) := by
  unfold bracket brackets
  by_cases h : own.rank < want.rank
  · simp [h]
  · simp [h]

theorem rank_apply (e : Expr) : decide ((exprPrec e).rank < Prec.apply.rank) = decide (tight e ≤ 1) := by
  cases e <;> simp [exprPrec, tight, Prec.rank]
  rename_i a o b
  cases o <;> simp [opPrec]

theorem rank_min (e : Expr) : decide ((exprPrec e).rank < Prec.min.rank) = false := by
  simp [Prec.rank]

theorem rank_op (e a b : Expr) (o : Op) :
    decide ((exprPrec e).rank < (opPrec o).next.rank) = decide (tight e ≤ tight (.op a o b)) := by
  cases e <;> cases o <;> simp [exprPrec, tight, Prec.rank, opPrec, Prec.next]
  all_goals (rename_i o' _; cases o' <;> simp)

theorem ty_min (t : Ty) : decide ((tyPrec t).rank < Prec.min.rank) = false := by simp [Prec.rank]
theorem ty_atom (t : Ty) : decide ((tyPrec t).rank < Prec.atom.rank) = !isSimpleTy t := by
  cases t <;> simp [tyPrec, isSimpleTy, Prec.rank]

theorem brackets_false (t : List Char) : brackets false t = t := rfl

def commaIf (first : Bool) {α : Type} (xs : List α) : List Char :=
  if first || xs.isEmpty then [] else [',']

mutual
theorem writeTy_text (c : Ctx) : ∀ (t : Ty) (want : Prec) (w : List Call), writeTy c want t = some w →
    callText w = brackets ((tyPrec t).rank < want.rank) (tyText c t)
  | .bool, _, _, h => by
    simp only [writeTy, Option.some.injEq] at h
    simp [← h, callText_bracket, tyText, tyPrec] <;> rfl
  | .int, _, _, h => by
    simp only [writeTy, Option.some.injEq] at h
    simp [← h, callText_bracket, tyText, tyPrec] <;> rfl
  | .string, _, _, h => by
    simp only [writeTy, Option.some.injEq] at h
    simp [← h, callText_bracket, tyText, tyPrec] <;> rfl
  | .var v, _, _, h => by
    simp only [writeTy, Option.some.injEq] at h
    simp [← h, callText_bracket, callText_number, tyText, tyPrec] <;> rfl
  | .named n args, _, _, h => by
    simp only [writeTy, Option.bind_eq_bind, Option.bind_eq_some_iff, Option.pure_def, Option.some.injEq] at h
    obtain ⟨w1, h1, w2, h2, rfl⟩ := h
    simp [callText_bracket, callText_name h1, writeTyArgs_text c args w2 h2, tyText, tyPrec] <;> rfl
  | .fn ps out, _, _, h => by
    simp only [writeTy, Option.bind_eq_bind, Option.bind_eq_some_iff, Option.pure_def, Option.some.injEq] at h
    obtain ⟨w1, h1, w2, h2, rfl⟩ := h
    have e1 := writeTyList_text c ps true w1 h1
    have e2 := writeTy_text c out .min w2 h2
    rw [ty_min, brackets_false] at e2
    simp [callText_bracket, e1, e2, tyText, tyPrec, commaIf] <;> rfl
  | .abs v t, _, _, h => by
    simp only [writeTy, Option.bind_eq_bind, Option.bind_eq_some_iff, Option.pure_def, Option.some.injEq] at h
    obtain ⟨w2, h2, rfl⟩ := h
    have e2 := writeTy_text c t .min w2 h2
    rw [ty_min, brackets_false] at e2
    simp [callText_bracket, callText_number, e2, tyText, tyPrec] <;> rfl
theorem writeTyArgs_text (c : Ctx) : ∀ (ts : List Ty) (w : List Call), writeTyArgs c ts = some w →
    callText w = tyArgsText c ts
  | [], _, h => by
    simp only [writeTyArgs, Option.some.injEq] at h
    rw [← h]; rfl
  | t :: ts, _, h => by
    simp only [writeTyArgs, Option.bind_eq_bind, Option.bind_eq_some_iff, Option.pure_def, Option.some.injEq] at h
    obtain ⟨w1, h1, w2, h2, rfl⟩ := h
    rw [callText_append, writeTy_text c t .atom w1 h1, writeTyArgs_text c ts w2 h2, ty_atom]
    simp only [tyArgsText]
theorem writeTyList_text (c : Ctx) : ∀ (ts : List Ty) (first : Bool) (w : List Call),
    writeTyList c first ts = some w → callText w = commaIf first ts ++ tysText c ts
  | [], first, _, h => by
    simp only [writeTyList, Option.some.injEq] at h
    rw [← h]; simp [commaIf, callText, tysText]
  | t :: ts, first, _, h => by
    simp only [writeTyList, Option.bind_eq_bind, Option.bind_eq_some_iff, Option.pure_def, Option.some.injEq] at h
    obtain ⟨w1, h1, w2, h2, rfl⟩ := h
    have e1 := writeTy_text c t .min w1 h1
    rw [ty_min, brackets_false] at e1
    have e2 := writeTyList_text c ts false w2 h2
    rw [callText_append, callText_append, e1, e2]
    cases first <;> cases ts <;> simp [commaIf, tysText]
end

theorem writeParam_text (c : Ctx) (p : Name × Ty) (w : List Call) (h : writeParam c p = some w) :
    callText w = paramText c p := by
  simp only [writeParam, Option.bind_eq_bind, Option.bind_eq_some_iff, Option.pure_def, Option.some.injEq] at h
  obtain ⟨w1, h1, w2, h2, rfl⟩ := h
  have e2 := writeTy_text c p.2 .min w2 h2
  rw [ty_min, brackets_false] at e2
  simp [callText_name h1, e2, paramText]

theorem writeParams_text (c : Ctx) : ∀ (ps : List (Name × Ty)) (first : Bool) (w : List Call),
    writeParams c first ps = some w → callText w = commaIf first ps ++ paramsText c ps
  | [], first, _, h => by
    simp only [writeParams, Option.some.injEq] at h
    rw [← h]; simp [commaIf, callText, paramsText]
  | p :: ps, first, _, h => by
    simp only [writeParams, Option.bind_eq_bind, Option.bind_eq_some_iff, Option.pure_def, Option.some.injEq] at h
    obtain ⟨w1, h1, w2, h2, rfl⟩ := h
    have e1 := writeParam_text c p w1 h1
    have e2 := writeParams_text c ps false w2 h2
    rw [callText_append, callText_append, e1, e2]
    cases first <;> cases ps <;> simp [commaIf, paramsText]

theorem mapM_text (c : Ctx) : ∀ (xs : List Name) (ws : List (List Call)),
    xs.mapM (writeName c) = some ws → callText ws.flatten = xs.flatMap (nameText c)
  | [], ws, h => by
    simp only [List.mapM_nil, Option.pure_def, Option.some.injEq] at h
    rw [← h]; rfl
  | x :: xs, ws, h => by
    simp only [List.mapM_cons, Option.bind_eq_bind, Option.bind_eq_some_iff, Option.pure_def,
      Option.some.injEq] at h
    obtain ⟨w1, h1, w2, h2, rfl⟩ := h
    simp [callText_name h1, mapM_text c xs w2 h2]

theorem callText_around (e : Expr) (want : Prec) (w : List Call) :
    callText (around e want w) = brackets ((exprPrec e).rank < want.rank) (callText w) := by
  unfold around
  cases isLet e <;> simp [callText_bracket]

mutual
theorem writeExpr_text (c : Ctx) : ∀ (e : Expr) (want : Prec) (w : List Call),
    writeExpr c want e = some w →
    callText w = brackets ((exprPrec e).rank < want.rank) (exprText c e)
  | .bool b, _, _, h => by
    simp only [writeExpr, Option.some.injEq] at h
    rw [← h, callText_around]
    cases b <;> simp [exprText]
  | .int i, _, _, h => by
    simp only [writeExpr, Option.some.injEq] at h
    rw [← h, callText_around, callText_number]; simp only [exprText]
  | .str s, _, _, h => by
    simp only [writeExpr, Option.some.injEq] at h
    rw [← h, callText_around]; simp [exprText]
  | .name n, _, _, h => by
    simp only [writeExpr, Option.map_eq_some_iff] at h
    obtain ⟨w1, h1, rfl⟩ := h
    rw [callText_around, callText_name h1]; simp only [exprText]
  | .call f args, _, _, h => by
    simp only [writeExpr, Option.bind_eq_bind, Option.bind_eq_some_iff, Option.pure_def, Option.some.injEq] at h
    obtain ⟨w1, h1, w2, h2, rfl⟩ := h
    have e1 := writeExpr_text c f .apply w1 h1
    have e2 := writeExprs_text c args true w2 h2
    rw [rank_apply] at e1
    rw [callText_around]
    congr 1
    simp [e1, e2, exprText, commaIf]
  | .intr i args, _, _, h => by
    simp only [writeExpr, Option.bind_eq_bind, Option.bind_eq_some_iff, Option.pure_def, Option.some.injEq] at h
    obtain ⟨w2, h2, rfl⟩ := h
    have e2 := writeExprs_text c args true w2 h2
    rw [callText_around]
    congr 1
    simp [e2, exprText, commaIf]
  | .ite a b d, _, _, h => by
    simp only [writeExpr, Option.bind_eq_bind, Option.bind_eq_some_iff, Option.pure_def, Option.some.injEq] at h
    obtain ⟨w1, h1, w2, h2, w3, h3, rfl⟩ := h
    have e1 := writeExpr_text c a .apply w1 h1
    have e2 := writeExpr_text c b .min w2 h2
    have e3 := writeExpr_text c d .min w3 h3
    rw [rank_apply] at e1
    rw [rank_min, brackets_false] at e2 e3
    rw [callText_around]
    congr 1
    simp [e1, e2, e3, exprText]
  | .op a o b, _, _, h => by
    simp only [writeExpr, Option.bind_eq_bind, Option.bind_eq_some_iff, Option.pure_def, Option.some.injEq] at h
    obtain ⟨w1, h1, w2, h2, rfl⟩ := h
    have e1 := writeExpr_text c a _ w1 h1
    have e2 := writeExpr_text c b _ w2 h2
    rw [rank_op a a b] at e1
    rw [rank_op b a b] at e2
    rw [callText_around]
    congr 1
    rw [callText_append, callText_tk, e1, e2, exprText]
    cases o <;> simp [opName, opText]
  | .lam ps e, _, _, h => by
    simp only [writeExpr, Option.bind_eq_bind, Option.bind_eq_some_iff, Option.pure_def, Option.some.injEq] at h
    obtain ⟨w1, h1, w2, h2, rfl⟩ := h
    have e1 := writeParams_text c ps true w1 h1
    have e2 := writeExpr_text c e .min w2 h2
    rw [rank_min, brackets_false] at e2
    rw [callText_around]
    congr 1
    cases isLam e <;>
      simp [e1, e2, exprText, commaIf]
  | .mtch d bs, _, _, h => by
    simp only [writeExpr, Option.bind_eq_bind, Option.bind_eq_some_iff, Option.pure_def, Option.some.injEq] at h
    obtain ⟨w1, h1, w2, h2, rfl⟩ := h
    have e1 := writeExpr_text c d .apply w1 h1
    have e2 := writeBranches_text c bs w2 h2
    rw [rank_apply] at e1
    rw [callText_around]
    congr 1
    simp [e1, e2, exprText]
  | .con n tys xs, _, _, h => by
    simp only [writeExpr, Option.bind_eq_bind, Option.bind_eq_some_iff, Option.pure_def, Option.some.injEq] at h
    obtain ⟨w1, h1, w2, h2, w3, h3, rfl⟩ := h
    have e1 := callText_ctor h1
    have e2 := writeTyList_text c tys true w2 h2
    have e3 := writeExprs_text c xs true w3 h3
    rw [callText_around]
    congr 1
    cases hh : tys.isEmpty <;>
      simp [e1, e2, e3, exprText, commaIf, hh]
  | .let_ x v e, _, _, h => by
    simp only [writeExpr, Option.bind_eq_bind, Option.bind_eq_some_iff, Option.pure_def, Option.some.injEq] at h
    obtain ⟨w1, h1, w2, h2, w3, h3, rfl⟩ := h
    have e1 := callText_name h1
    have e2 := writeExpr_text c v .min w2 h2
    have e3 := writeExpr_text c e .min w3 h3
    rw [rank_min, brackets_false] at e2 e3
    rw [callText_around]
    congr 1
    simp [e1, e2, e3, exprText]
  | .letrec x t v e, _, _, h => by
    simp only [writeExpr, Option.bind_eq_bind, Option.bind_eq_some_iff, Option.pure_def, Option.some.injEq] at h
    obtain ⟨w1, h1, w0, h0, w2, h2, w3, h3, rfl⟩ := h
    have e1 := callText_name h1
    have e0 := writeTy_text c t .min w0 h0
    have e2 := writeExpr_text c v .min w2 h2
    have e3 := writeExpr_text c e .min w3 h3
    rw [rank_min, brackets_false] at e2 e3
    rw [ty_min, brackets_false] at e0
    rw [callText_around]
    congr 1
    simp [e0, e1, e2, e3, exprText]
  | .trap m t, _, _, h => by
    simp only [writeExpr, Option.bind_eq_bind, Option.bind_eq_some_iff, Option.pure_def, Option.some.injEq] at h
    obtain ⟨w0, h0, rfl⟩ := h
    have e0 := writeTy_text c t .min w0 h0
    rw [ty_min, brackets_false] at e0
    rw [callText_around]
    congr 1
    simp [e0, exprText]
  | .pi v e, _, _, h => by
    simp only [writeExpr, Option.bind_eq_bind, Option.bind_eq_some_iff, Option.pure_def, Option.some.injEq] at h
    obtain ⟨w0, h0, rfl⟩ := h
    have e0 := writeExpr_text c e .min w0 h0
    rw [rank_min, brackets_false] at e0
    rw [callText_around]
    congr 1
    simp [callText_number, e0, exprText]
  | .piApp e t, _, _, h => by
    simp only [writeExpr, Option.bind_eq_bind, Option.bind_eq_some_iff, Option.pure_def, Option.some.injEq] at h
    obtain ⟨w1, h1, w0, h0, rfl⟩ := h
    have e1 := writeExpr_text c e .apply w1 h1
    have e0 := writeTy_text c t .min w0 h0
    rw [ty_min, brackets_false] at e0
    rw [rank_apply] at e1
    rw [callText_around]
    congr 1
    simp [e0, e1, exprText]
theorem writeExprs_text (c : Ctx) : ∀ (es : List Expr) (first : Bool) (w : List Call),
    writeExprs c first es = some w → callText w = commaIf first es ++ exprsText c es
  | [], first, _, h => by
    simp only [writeExprs, Option.some.injEq] at h
    rw [← h]; simp [commaIf, callText, exprsText]
  | e :: es, first, _, h => by
    simp only [writeExprs, Option.bind_eq_bind, Option.bind_eq_some_iff, Option.pure_def, Option.some.injEq] at h
    obtain ⟨w1, h1, w2, h2, rfl⟩ := h
    have e1 := writeExpr_text c e .min w1 h1
    rw [rank_min, brackets_false] at e1
    have e2 := writeExprs_text c es false w2 h2
    rw [callText_append, callText_append, e1, e2]
    cases first <;> cases es <;> simp [commaIf, exprsText]
theorem writeBranches_text (c : Ctx) : ∀ (bs : List Branch) (w : List Call),
    writeBranches c bs = some w → callText w = branchesText c bs
  | [], _, h => by
    simp only [writeBranches, Option.some.injEq] at h
    rw [← h]; simp [callText, branchesText]
  | .mk n xs e :: bs, _, h => by
    simp only [writeBranches, Option.bind_eq_bind, Option.bind_eq_some_iff, Option.pure_def, Option.some.injEq] at h
    obtain ⟨w1, h1, w2, h2, w3, h3, w4, h4, rfl⟩ := h
    have e1 := callText_ctor h1
    have e2 := mapM_text c xs w2 h2
    have e3 := writeExpr_text c e .min w3 h3
    rw [rank_min, brackets_false] at e3
    have e4 := writeBranches_text c bs w4 h4
    simp [e1, e2, e3, e4, branchesText]
end

theorem writeDef_text {c : Ctx} {d : ValueDef} {w : List Call} (h : writeDef c d = some w) :
    callText w = defText c d := by
  simp only [writeDef, Option.bind_eq_bind, Option.bind_eq_some_iff, Option.pure_def, Option.some.injEq] at h
  obtain ⟨w1, h1, w0, h0, w2, h2, rfl⟩ := h
  have e1 := callText_name h1
  have e0 := writeTy_text c d.ty .min w0 h0
  have e2 := writeExpr_text c d.value .min w2 h2
  rw [rank_min, brackets_false] at e2
  rw [ty_min, brackets_false] at e0
  unfold defText
  cases d.exportName <;>
    simp [e0, e1, e2]

/-! ## The listing -/

/-- One definition's paragraph. -/
def paragraph (c : Ctx) (d : ValueDef) : Option (List Char) := (writeDef c d).bind layout

/-- Paragraphs one after the other, with an empty line between two (each ends its own line). -/
def joined : List (List Char) → List Char
  | [] => []
  | [p] => p
  | p :: q :: ps => p ++ '\n' :: joined (q :: ps)

theorem prettyDefs_joined (c : Ctx) : ∀ (ds : List ValueDef) (ps : List (List Char)) (acc : List Char),
    ds.map (paragraph c) = ps.map some → (∀ p ∈ ps, p ≠ []) →
    prettyDefs c acc ds = some (acc ++ (if acc.isEmpty || ps.isEmpty then [] else ['\n']) ++ joined ps)
  | [], ps, acc, h, _ => by
    cases ps with
    | nil => simp [prettyDefs, joined]
    | cons p ps => simp at h
  | d :: ds, ps, acc, h, hne => by
    cases ps with
    | nil => simp at h
    | cons p ps =>
      simp only [List.map_cons, List.cons.injEq] at h
      have hp := h.1
      unfold paragraph at hp
      cases hw : writeDef c d with
      | none => rw [hw] at hp; simp at hp
      | some w =>
        rw [hw] at hp
        simp only [Option.bind_some] at hp
        have ih := prettyDefs_joined c ds ps
          (acc ++ (if acc.isEmpty then [] else ['\n']) ++ p) h.2
          (fun q hq => hne q (List.mem_cons_of_mem _ hq))
        have hpne := hne p (by simp)
        have hemp : (acc ++ (if acc.isEmpty then [] else ['\n']) ++ p).isEmpty = false := by
          cases p with
          | nil => exact absurd rfl hpne
          | cons x xs => simp
        simp only [prettyDefs, hw, hp, Option.bind_eq_bind, Option.bind_some]
        rw [ih, hemp]
        cases ps with
        | nil => cases acc <;> simp [joined]
        | cons q qs => cases acc <;> simp [joined]

/-- The calls of one definition: its first tokens, and how it ends. -/
theorem writeDef_form {c : Ctx} {d : ValueDef} {w : List Call} (h : writeDef c d = some w) :
    ∃ s mid, c.names[d.name]? = some s ∧
      w = .start true true ::
        ((match d.exportName with
          | some x => [stk "export(" .next, .token (c.quote x) .none, stk ")" .prev]
          | none => []) ++
        tk "let" :: .token (s ++ '_' :: Names.decimal d.name) .none :: mid ++
        [stk ";" .prev, .newline, .finish]) := by
  unfold writeDef at h
  cases hn : writeName c d.name with
  | none => rw [hn] at h; simp at h
  | some wn =>
    cases ht : writeTy c .min d.ty with
    | none => rw [hn, ht] at h; simp at h
    | some wt =>
      cases he : writeExpr c .min d.value with
      | none => rw [hn, ht, he] at h; simp at h
      | some we =>
        rw [hn, ht, he] at h
        unfold writeName at hn
        split at hn
        · rename_i s hs
          cases hn
          refine ⟨s, tk ":" :: wt ++ tk "=" :: we, hs, ?_⟩
          simp only [Option.bind_eq_bind, Option.bind_some, Option.pure_def, Option.some.injEq] at h
          rw [← h]
          cases d.exportName <;> simp
        · cases hn

theorem events_split (R : Bool) (tail : List Call) : ∀ (cs : List Call) (st : List (Bool × Bool)),
    ∃ es st', events R st (cs ++ tail) = es ++ events R st' tail
  | [], st => ⟨[], st, rfl⟩
  | c :: cs, st => by
    rw [List.cons_append]
    cases c with
    | token t s => rw [events]; obtain ⟨es, st', h⟩ := events_split R tail cs st
                   exact ⟨_ :: es, st', by rw [h]; rfl⟩
    | newline => rw [events]; obtain ⟨es, st', h⟩ := events_split R tail cs st
                 exact ⟨_ :: es, st', by rw [h]; rfl⟩
    | whitespace ws => rw [events]; obtain ⟨es, st', h⟩ := events_split R tail cs st
                       exact ⟨_ ++ es, st', by rw [h, List.append_assoc]⟩
    | largeNewline =>
      cases st with
      | nil => rw [events]; obtain ⟨es, st', h⟩ := events_split R tail cs []
               exact ⟨_ ++ es, st', by rw [h, List.append_assoc]⟩
      | cons n st => rw [events]; obtain ⟨es, st', h⟩ := events_split R tail cs (n :: st)
                     exact ⟨_ ++ es, st', by rw [h, List.append_assoc]⟩
    | start l i =>
      rw [events]
      obtain ⟨es, st', h⟩ := events_split R tail cs ((l || largeInside 0 (cs ++ tail), i) :: st)
      exact ⟨_ ++ es, st', by rw [h, List.append_assoc]⟩
    | finish =>
      cases st with
      | nil => rw [events]; exact events_split R tail cs []
      | cons n st => rw [events]; obtain ⟨es, st', h⟩ := events_split R tail cs st
                     exact ⟨_ ++ es, st', by rw [h, List.append_assoc]⟩

theorem expected_leaves : ∀ (es : List Ev) (s : Sticky) (ls : List Level), (∀ e ∈ es, e = .leave) →
    expected (some s) true ls es = ['\n']
  | [], _, _, _ => by simp [expected]
  | e :: es, s, ls, h => by
    have := h e (by simp)
    subst this
    simp only [expected]
    exact expected_leaves es s ls.tail (fun x hx => h x (List.mem_cons_of_mem _ hx))

theorem expected_ends (t : List Char) (s : Sticky) (tl : List Ev) (ht : ∀ e ∈ tl, e = .leave) :
    ∀ (es : List Ev) (prev : Option Sticky) (broken : Bool) (ls : List Level),
      ∃ x, expected prev broken ls (es ++ .tok t s :: .brk :: tl) = x ++ t ++ ['\n']
  | [], prev, broken, ls => by
    simp only [List.nil_append, expected, expected_leaves tl s _ ht]
    exact ⟨_, rfl⟩
  | e :: es, prev, broken, ls => by
    rw [List.cons_append]
    cases e with
    | tok t' s' =>
      obtain ⟨x, h⟩ := expected_ends t s tl ht es (some s') false (withTok ls)
      simp only [expected, h]
      exact ⟨_, by rw [← List.append_assoc, ← List.append_assoc]⟩
    | brk => simp only [expected]; exact expected_ends t s tl ht es _ _ _
    | enter => simp only [expected]; exact expected_ends t s tl ht es _ _ _
    | leave => simp only [expected]; exact expected_ends t s tl ht es _ _ _

theorem writeDef_ends {c : Ctx} {d : ValueDef} {w : List Call} (h : writeDef c d = some w)
    (hl : w.length < 2 ^ 32) : ∃ x, layout w = some (x ++ [';', '\n']) := by
  obtain ⟨s, mid, hs, hw⟩ := writeDef_form h
  rw [layout_as_specified w hl, expectedText]
  have hw2 : ∃ cs, w = cs ++ [stk ";" .prev, .newline, .finish] := by
    rw [hw]
    refine ⟨.start true true :: ((match d.exportName with
          | some x => [stk "export(" .next, .token (c.quote x) .none, stk ")" .prev]
          | none => []) ++ tk "let" :: .token (s ++ '_' :: Names.decimal d.name) .none :: mid), ?_⟩
    simp only [List.cons_append, List.append_assoc]
  obtain ⟨cs, hcs⟩ := hw2
  obtain ⟨es, st', he⟩ := events_split (anyLargeCall w) [stk ";" .prev, .newline, .finish] cs []
  rw [← hcs] at he
  rw [he]
  have htail : ∃ tl, (∀ e ∈ tl, e = Ev.leave) ∧ events (anyLargeCall w) st'
      [stk ";" .prev, .newline, .finish] = .tok [';'] .prev :: .brk :: tl := by
    have hlv : ∀ st : List (Bool × Bool), ∀ e ∈ events (anyLargeCall w) st [], e = Ev.leave := by
      intro st e he
      rw [events, List.mem_flatMap] at he
      obtain ⟨n, _, hn⟩ := he
      split at hn
      · simpa using hn
      · simp at hn
    cases st' with
    | nil => exact ⟨events (anyLargeCall w) [] [], hlv [], by simp [stk, events]⟩
    | cons n st =>
      refine ⟨(if n.2 then [.leave] else []) ++ events (anyLargeCall w) st [], ?_, by simp [stk, events]⟩
      intro e he
      rcases List.mem_append.mp he with he | he
      · split at he
        · simpa using he
        · simp at he
      · exact hlv st e he
  obtain ⟨tl, h1, h2⟩ := htail
  rw [h2]
  obtain ⟨x, hx⟩ := expected_ends [';'] .prev tl h1 es none false []
  exact ⟨x, by rw [hx]; simp⟩

/-- How a definition's paragraph starts. -/
def opening (c : Ctx) (d : ValueDef) (s : List Char) : List Char :=
  (match d.exportName with
    | some x => "export(".toList ++ c.quote x ++ ") ".toList
    | none => []) ++ "let ".toList ++ s ++ '_' :: Names.decimal d.name

theorem writeDef_laid {c : Ctx} {d : ValueDef} {w : List Call} (h : writeDef c d = some w)
    (hl : w.length < 2 ^ 32) :
    ∃ s rest, c.names[d.name]? = some s ∧ layout w = some (opening c d s ++ rest) := by
  obtain ⟨s, mid, hs, hw⟩ := writeDef_form h
  refine ⟨s, ?_⟩
  rw [layout_as_specified w hl]
  rw [hw]
  cases hx : d.exportName with
  | none =>
    exact ⟨_, hs, by
      simp only [expectedText, stk, tk, List.nil_append, List.cons_append, events, expected, withTok,
        separator, opening, hx, Sticky.toNext, Sticky.toPrev, Bool.or_self, Bool.false_eq_true, if_false,
        if_true, List.append_assoc]
      rfl⟩
  | some x =>
    exact ⟨_, hs, by
      simp only [expectedText, stk, tk, List.nil_append, List.cons_append, events, expected, withTok,
        separator, opening, hx, Sticky.toNext, Sticky.toPrev, Bool.or_self, Bool.false_eq_true, if_false,
        if_true, List.append_assoc, Bool.or_true, Bool.true_or]
      rfl⟩

/-- Neither a space nor a line feed. -/
def inked (ch : Char) : Bool := ch != ' ' && ch != '\n'

theorem tokenCalls_text : ∀ (w : List Call) (st : List Bool), (tokenCalls st w).flatMap (·.1) = callText w
  | [], _ => rfl
  | c :: w, st => by
    have hw : ∀ ws : List Char, callText (.whitespace ws :: w) = callText w := fun _ => rfl
    cases c <;> simp [tokenCalls, tokenCalls_text w, hw]

theorem writeDef_inked {c : Ctx} {d : ValueDef} {w : List Call} (h : writeDef c d = some w)
    (hl : w.length < 2 ^ 32) : ∃ t, layout w = some t ∧ t.filter inked = (defText c d).filter inked := by
  obtain ⟨t, h1, h2⟩ := layout_dense w hl
  refine ⟨t, h1, ?_⟩
  rw [tokenCalls_text, writeDef_text h] at h2
  exact h2

/-- **C44.** The listing does not fail on a program all of whose names are in the program's table
(and none of whose definitions takes 2^32 pieces to write).  It has one paragraph for each definition, in
order, with an empty line between two, and every paragraph starts with the definition's export name (if it
has one), `let`, and its name and id, and ends with a semicolon at the end of a line;
apart from blanks it is the definition's text, `defText`. -/
theorem listing (c : Ctx) (p : Program) (hin : ∀ d ∈ p.defs, DefIn c.names.length d)
    (hsize : ∀ d ∈ p.defs, ∀ w, writeDef c d = some w → w.length < 2 ^ 32) :
    ∃ ps : List (List Char), pretty c p = some (joined ps) ∧ ps.length = p.defs.length ∧
      ∀ (i : Nat) (d : ValueDef) (t : List Char), p.defs[i]? = some d → ps[i]? = some t →
        (∃ s rest, c.names[d.name]? = some s ∧ t = opening c d s ++ rest) ∧
          (∃ x, t = x ++ [';', '\n']) ∧ t.filter inked = (defText c d).filter inked := by
  have key : ∀ ds : List ValueDef, (∀ d ∈ ds, DefIn c.names.length d) →
      (∀ d ∈ ds, ∀ w, writeDef c d = some w → w.length < 2 ^ 32) →
      ∃ ps : List (List Char), ds.map (paragraph c) = ps.map some ∧
        ∀ (i : Nat) (d : ValueDef) (t : List Char), ds[i]? = some d → ps[i]? = some t →
          (∃ s rest, c.names[d.name]? = some s ∧ t = opening c d s ++ rest) ∧
            (∃ x, t = x ++ [';', '\n']) ∧ t.filter inked = (defText c d).filter inked := by
    intro ds
    induction ds with
    | nil => intro _ _; exact ⟨[], rfl, by simp⟩
    | cons d ds ih =>
      intro h1 h2
      obtain ⟨ps, h3, h4⟩ := ih (fun x hx => h1 x (List.mem_cons_of_mem _ hx))
        (fun x hx => h2 x (List.mem_cons_of_mem _ hx))
      obtain ⟨w, hw⟩ := writeDef_in c (h1 d (by simp))
      obtain ⟨s, rest, hs, hl⟩ := writeDef_laid hw (h2 d (by simp) w hw)
      obtain ⟨t0, ht0, hink⟩ := writeDef_inked hw (h2 d (by simp) w hw)
      obtain ⟨x, hx⟩ := writeDef_ends hw (h2 d (by simp) w hw)
      refine ⟨(opening c d s ++ rest) :: ps, by simp [paragraph, hw, hl, h3], ?_⟩
      intro i d' t hd ht
      cases i with
      | zero => simp only [List.getElem?_cons_zero, Option.some.injEq] at hd ht; subst hd; subst ht
                exact ⟨⟨s, rest, hs, rfl⟩, ⟨x, by rw [hl] at hx; exact Option.some.inj hx⟩, by
                  rw [hl] at ht0; cases ht0; exact hink⟩
      | succ i => simp only [List.getElem?_cons_succ] at hd ht; exact h4 i d' t hd ht
  obtain ⟨ps, h1, h2⟩ := key p.defs hin hsize
  have hlen : ps.length = p.defs.length := by
    have := congrArg List.length h1
    simpa using this.symm
  refine ⟨ps, ?_, hlen, h2⟩
  have := prettyDefs_joined c p.defs ps [] h1 (by
    intro t ht
    obtain ⟨i, hi, rfl⟩ := List.mem_iff_getElem.mp ht
    obtain ⟨⟨s, rest, _, h⟩, _⟩ := h2 i (p.defs[i]'(by omega)) _ (by simp [hlen ▸ hi]) (List.getElem?_eq_getElem hi)
    rw [h]
    simp [opening])
  simpa [pretty] using this

/-! ## What the listing does not tell -/

def exCtx : Ctx := ⟨["x".toList], fun s => s.toList⟩
def modProgram (o : Op) : Program := ⟨[], [⟨0, some "x", .int, .op (.int 7) o (.int 2)⟩]⟩

theorem modProgram_calls (o : Op) : writeDef exCtx ⟨0, some "x", .int, .op (.int 7) o (.int 2)⟩ =
    some [.start true true, stk "export(" .next, tk "x", stk ")" .prev, tk "let", tk "x_0", tk ":",
      tk "int", tk "=", .start false true, .start false true, tk "", .token ['7'] .prev, .finish,
      tk (opName o), .start false true, tk "", .token ['2'] .prev, .finish, .finish, stk ";" .prev,
      .newline, .finish] := by
  cases o <;>
    simp [writeDef, writeName, exCtx, writeTy, writeExpr, around, bracket, exprPrec, exprNode, isLet,
      Prec.rank, Prec.next, opPrec, writeNumber, glueNumber, tk, stk, Names.decimal] <;> rfl

/-- **Finding.** `write_expr` writes `Modulo` as `*`: two valid programs that export the same name with
different values have the same listing. -/
theorem modulo_listed_as_times :
    pretty exCtx (modProgram .modulo) = some "export(x) let x_0 : int = 7 * 2;\n".toList ∧
    pretty exCtx (modProgram .multiply) = some "export(x) let x_0 : int = 7 * 2;\n".toList ∧
    (verify 1 (modProgram .modulo)).isSome ∧ (verify 1 (modProgram .multiply)).isSome ∧
    evalProgram 5 (modProgram .modulo) [.name 0] = .ok [.int 1] ∧
    evalProgram 5 (modProgram .multiply) [.name 0] = .ok [.int 14] := by
  refine ⟨?_, ?_, by decide +kernel, by decide +kernel, by rfl, by rfl⟩
  · simp only [pretty, modProgram, prettyDefs, modProgram_calls, Option.bind_eq_bind, Option.bind_some]
    rw [layout_as_specified _ (by decide)]
    decide +kernel
  · simp only [pretty, modProgram, prettyDefs, modProgram_calls, Option.bind_eq_bind, Option.bind_some]
    rw [layout_as_specified _ (by decide)]
    decide +kernel

/-- The hypotheses of `listing` hold of it, and its conclusion can be read off above. -/
example : (∀ d ∈ (modProgram .add).defs, DefIn exCtx.names.length d) ∧
    ∀ d ∈ (modProgram .add).defs, ∀ w, writeDef exCtx d = some w → w.length < 2 ^ 32 := by
  constructor
  · intro d hd
    simp only [modProgram, List.mem_singleton] at hd
    subst hd
    simp [DefIn, exCtx, TyIn, ExprIn]
  · intro d hd w hw
    simp only [modProgram, List.mem_singleton] at hd
    subst hd
    rw [modProgram_calls] at hw
    cases hw
    decide

/-- A function with a match, nested brackets and a `let`, over two definitions. -/
def exDef : ValueDef := ⟨2, none, .fn [.named 0 [.var 3]] .int,
  .lam [(3, .named 0 [.var 3])] (.mtch (.name 3)
    [.mk 1 [4] (.op (.op (.name 4) .subtract (.int 12)) .subtract (.int 0)),
     .mk 1 [] (.let_ 4 (.str [104, 10]) (.trap "no" .int))])⟩
def exCtx2 : Ctx := ⟨["T", "A", "f", "x", "y"].map String.toList, fun s => '"' :: s.toList ++ ['"']⟩

theorem exDef_text : (writeDef exCtx2 exDef).map expectedText =
    some ("let f_2 : (T_0 t3) -> int = \\(x_3 : T_0 t3) ->\n    match x_3 with\n" ++
      "    | @A_1 y_4 -> (y_4 - 12) - 0\n    | @A_1 ->\n        " ++
      "let y_4 = \"h\\n\";\n        #trap(\"no\", int)\n    end;\n").toList := by
  have hd : ∀ n : Nat, n < 10 → Names.decimal n = [Names.digitChar n] := by
    intro n hn; rw [Names.decimal]; simp [hn]
  simp only [exDef, writeDef, writeName, writeCtor, exCtx2, writeTy, writeTyArgs, writeTyList, writeExpr,
      writeBranches, writeParams, writeParam, writeNumber]
  have hg : ∀ n : Nat, n < 10 → glueNumber n = [.token [Char.ofNat (48 + n % 10)] .prev] := by
    intro n hn; rw [glueNumber]; simp [Nat.not_le.mpr hn]
  have hg12 : glueNumber 12 = [.token ['1'] .prev, .token ['2'] .prev] := by
    rw [glueNumber]; simp [hg]
  rw [show (12 : UInt64).toNat = 12 from rfl, show (0 : UInt64).toNat = 0 from rfl, hg12,
    hg 3 (by decide), hg 0 (by decide)]
  simp only [hd 0 (by decide), hd 1 (by decide), hd 2 (by decide), hd 3 (by decide), hd 4 (by decide)]
  decide +kernel

end Tic.Pretty
