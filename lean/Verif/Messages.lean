/-
The messages of errors and warnings, `ticc/src/error.rs`, `ticc/src/api/errors.rs`.
-/
import Verif.PrintTy
import Verif.Names

namespace Tic.Print

open Tic.Unify (Symbol IrTy)
open Tic.Lexer (Text)

/-- `RawSegment`, `error.rs:14-20` (`Str` and `String` are one). -/
inductive Seg
  | str (t : Text)
  | num (n : Nat)
  | ty (t : IrTy)
  | sym (s : Symbol)

/-- `{}` of a number. -/
def numText (n : Nat) : Text := (Names.decimal n).map fun c => UInt8.ofNat c.toNat

/-- ASCII text. -/
def lit (s : String) : Text := s.toList.map fun c => UInt8.ofNat c.toNat

/-- `format_message`, `errors.rs:36-66`, with the printer's cache before and after. -/
def formatMessage (ds : Defs) : Cache → List Seg → Text × Cache
  | c, [] => ([], c)
  | c, .str t :: r => (t ++ (formatMessage ds c r).1, (formatMessage ds c r).2)
  | c, .num n :: r => (numText n ++ (formatMessage ds c r).1, (formatMessage ds c r).2)
  | c, .ty t :: r =>
    let x := printType ds c t
    (x.1 ++ (formatMessage ds x.2 r).1, (formatMessage ds x.2 r).2)
  | c, .sym s :: r =>
    ((match findDef ds s with
      | some n => n
      | none => [87, 84, 70]) ++ (formatMessage ds c r).1, (formatMessage ds c r).2)

/-- The messages of several diagnostics, one printer. -/
def formatAll (ds : Defs) : Cache → List (List Seg) → List Text × Cache
  | c, [] => ([], c)
  | c, m :: ms =>
    let x := formatMessage ds c m
    let y := formatAll ds x.2 ms
    (x.1 :: y.1, y.2)

/-- `diagnostics`, `errors.rs:6-34`: the texts of the items' diagnostics and of the lints after them; the texts of the lints are made first. -/
def diagnosticTexts (ds : Defs) (items : List (List (List Seg))) (lints : List (List Seg)) : List Text :=
  let l := formatAll ds [] lints
  (formatAll ds l.2 items.flatten).1 ++ l.1

/-- What the checks and the lint say: of types `T`, definitions `S` and type names `K`. -/
inductive Msg (T S K : Type)
  | mismatch (expected actual : T)
  | fields (expected actual : Nat)
  | cannotMatch (t : T)
  | unreachable
  | missing1 (c : S)
  | missing2 (c d : S)
  | missing (c : S) (more : Nat)
  | typeArgs (t : K) (expected actual : Nat)
  | unused (s : S)

/-- `typeck.rs:340`, `typeck.rs:518-523`, `matchck.rs:35-38` (`:49`, `:64`), `matchck.rs:84`, `matchck.rs:95-99`, `matchck.rs:106-112`, `matchck.rs:119-125`, `kindck.rs:86-92`, `unused.rs:45`. -/
def Msg.segs : Msg IrTy Symbol Symbol → List Seg
  | .mismatch e a => [.str (lit "expected "), .ty e, .str (lit ", got "), .ty a]
  | .fields e a => [.str (lit "expected "), .num e, .str (lit " fields, got "), .num a]
  | .cannotMatch t => [.str (lit "cannot match on "), .ty t]
  | .unreachable => [.str (lit "unreachable pattern")]
  | .missing1 c => [.str (lit "pattern "), .sym c, .str (lit " not covered")]
  | .missing2 c d => [.str (lit "patterns "), .sym c, .str (lit " and "), .sym d, .str (lit " not covered")]
  | .missing c n => [.str (lit "patterns "), .sym c, .str (lit " and "), .num n, .str (lit " more not covered")]
  | .typeArgs t e a => [.ty (.named t []), .str (lit " expects "), .num e, .str (lit " type arguments, got "), .num a]
  | .unused s => [.sym s, .str (lit " is never used")]

/-- `matchck.rs:91-131`: what is said of constructors that are not covered. -/
def missingMsg : List Symbol → Option (Msg IrTy Symbol Symbol)
  | [] => none
  | [c] => some (.missing1 c)
  | [c, d] => some (.missing2 c d)
  | c :: rest => some (.missing c rest.length)

end Tic.Print
