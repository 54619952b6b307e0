import Verif.ProgramOK
/-
What a source program means: a big-step semantics of the language itself, independent of core and of
code generation.  It says nothing about programs that go wrong: they have no outcome here.

A fold `\fold x -> body`, applied to a value of a declared type, first applies itself to the fields
declared `rec`, and then evaluates the body with the value so changed.  The only annotation of the
type checker that matters is whether a fold goes over a declared type (a type variable or a
function type has no fields), so that expressions carry a truth value where the type was.
-/
namespace Tic.Front
open Tic.Unify (Symbol IrTy)
open Tic.Core (Op strLen strCharAt strSubstring strFromChar intToStr)

/-- Functions that are not written as lambdas: constructors (with their number of fields) and the
built-in functions. -/
inductive Head
  | ctor (c : Symbol) (arity : Nat)
  | builtin (b : Builtin)

/-- Values of the source language. -/
inductive SVal
  | int (x : UInt64)
  | bool (b : Bool)
  | str (s : List UInt8)
  | comp (c : Symbol) (fields : List SVal)
  | fn (σ : List (Symbol × SVal)) (p : Symbol) (body : Ex Bool)
  | foldFn (data : Bool) (σ : List (Symbol × SVal)) (p : Symbol) (body : Ex Bool)
  | part (h : Head) (args : List SVal)

/-- Values of names, the latest first. -/
abbrev SEnv := List (Symbol × SVal)

/-- The value of a name. -/
def SEnv.find : SEnv → Symbol → Option SVal
  | [], _ => none
  | (s, v) :: σ, x => if s = x then some v else SEnv.find σ x

/-- The number of arguments. -/
def Head.arity : Head → Nat
  | .ctor _ n => n
  | .builtin .iterate => 3
  | .builtin .stringLength => 1
  | .builtin .stringConcat => 2
  | .builtin .stringCharAt => 2
  | .builtin .stringSubstring => 3
  | .builtin .stringFromChar => 1
  | .builtin .intToString => 1

/-- What a constructor or a built-in function (other than `iterate`) gives for all its arguments. -/
def Head.result : Head → List SVal → Option SVal
  | .ctor c _, args => some (.comp c args)
  | .builtin .stringLength, [.str s] => some (.int (strLen s))
  | .builtin .stringConcat, [.str s, .str t] => some (.str (s ++ t))
  | .builtin .stringCharAt, [.int i, .str s] => some (.int (strCharAt i s))
  | .builtin .stringSubstring, [.int i, .int n, .str s] => some (.str (strSubstring i n s))
  | .builtin .stringFromChar, [.int c] => some (.str (strFromChar c))
  | .builtin .intToString, [.int i] => some (.str (intToStr i))
  | _, _ => none

/-- The value of a name for a constructor or a built-in function. -/
def Head.value (h : Head) : SVal :=
  match h with
  | .ctor c 0 => .comp c []
  | h => .part h []

/-- Operators on 64-bit numbers: arithmetic wraps around, dividing by zero gives zero, and the
remainder of a division by zero is the dividend. -/
def opValue (o : Op) (a b : UInt64) : SVal :=
  match o with
  | .add => .int (a + b)
  | .subtract => .int (a - b)
  | .multiply => .int (a * b)
  | .divide => .int (if b = 0 then 0 else a / b)
  | .modulo => .int (if b = 0 then a else a % b)
  | .less => .bool (decide (a < b))
  | .lessEq => .bool (decide (a ≤ b))
  | .greater => .bool (decide (a > b))
  | .greaterEq => .bool (decide (a ≥ b))
  | .equal => .bool (decide (a = b))
  | .notEqual => .bool (decide (a ≠ b))

/-- The first case for a constructor. -/
def findCase (c : Symbol) : List (Case Bool) → Option (List Symbol × Ex Bool)
  | [] => none
  | .mk c' vs body :: cs => if c' = c then some (vs.map (·.1), body) else findCase c cs

/-- Naming several values; later names shadow earlier ones. -/
def bindS : SEnv → List Symbol → List SVal → SEnv
  | σ, s :: ss, v :: vs => bindS ((s, v) :: σ) ss vs
  | σ, _, _ => σ

/-- An outcome: a result, or a stop at a hole with its message. -/
inductive Out (α : Type)
  | ok (a : α)
  | trap (m : String)

mutual
/-- `Ev T σ e o`: evaluating `e` has outcome `o`; `T` are the fields of constructors. -/
inductive Ev (T : Symbol → Option (List Field)) : SEnv → Ex Bool → Out SVal → Prop
  | name {σ s inst v} : SEnv.find σ s = some v → Ev T σ (.name s inst) (.ok v)
  | apply {σ f a F A o} : Ev T σ f (.ok F) → Ev T σ a (.ok A) → Ap T F A o → Ev T σ (.apply f a) o
  | applyL {σ f a m} : Ev T σ f (.trap m) → Ev T σ (.apply f a) (.trap m)
  | applyR {σ f a F m} : Ev T σ f (.ok F) → Ev T σ a (.trap m) → Ev T σ (.apply f a) (.trap m)
  | pipe {σ f a F A o} : Ev T σ f (.ok F) → Ev T σ a (.ok A) → Ap T F A o → Ev T σ (.pipe a f) o
  | pipeL {σ f a m} : Ev T σ f (.trap m) → Ev T σ (.pipe a f) (.trap m)
  | pipeR {σ f a F m} : Ev T σ f (.ok F) → Ev T σ a (.trap m) → Ev T σ (.pipe a f) (.trap m)
  | binary {σ o l r x y} : Ev T σ l (.ok (.int x)) → Ev T σ r (.ok (.int y)) → Ev T σ (.binary o l r) (.ok (opValue o x y))
  | binaryL {σ o l r m} : Ev T σ l (.trap m) → Ev T σ (.binary o l r) (.trap m)
  | binaryR {σ o l r x m} : Ev T σ l (.ok (.int x)) → Ev T σ r (.trap m) → Ev T σ (.binary o l r) (.trap m)
  | let_ {σ s vars ann b v e w o} : Ev T σ v (.ok w) → Ev T ((s, w) :: σ) e o → Ev T σ (.let_ s vars ann b v e) o
  | letL {σ s vars ann b v e m} : Ev T σ v (.trap m) → Ev T σ (.let_ s vars ann b v e) (.trap m)
  | match_ {σ d b cases c fs ns body o} : Ev T σ d (.ok (.comp c fs)) → findCase c cases = some (ns, body) → ns.length = fs.length →
      Ev T (bindS σ ns fs) body o → Ev T σ (.match_ d b cases) o
  | matchL {σ d b cases m} : Ev T σ d (.trap m) → Ev T σ (.match_ d b cases) (.trap m)
  | iteT {σ c a b o} : Ev T σ c (.ok (.bool true)) → Ev T σ a o → Ev T σ (.ite c a b) o
  | iteF {σ c a b o} : Ev T σ c (.ok (.bool false)) → Ev T σ b o → Ev T σ (.ite c a b) o
  | iteL {σ c a b m} : Ev T σ c (.trap m) → Ev T σ (.ite c a b) (.trap m)
  | bool {σ b} : Ev T σ (.bool b) (.ok (.bool b))
  | number {σ i} : Ev T σ (.number i) (.ok (.int i))
  | str {σ s} : Ev T σ (.str s) (.ok (.str s))
  | lambda {σ p b d body} : Ev T σ (.lambda false p b d body) (.ok (.fn σ p body))
  | fold {σ p b d body} : Ev T σ (.lambda true p b d body) (.ok (.foldFn d σ p body))
  | paren {σ e o} : Ev T σ e o → Ev T σ (.paren e) o
  | hole {σ text b} : Ev T σ (.hole text b) (.trap ("encountered " ++ text))
/-- `Ap T f a o`: applying `f` to `a` has outcome `o`. -/
inductive Ap (T : Symbol → Option (List Field)) : SVal → SVal → Out SVal → Prop
  | fn {σ p body a o} : Ev T ((p, a) :: σ) body o → Ap T (.fn σ p body) a o
  | plain {σ p body a o} : Ev T ((p, a) :: σ) body o → Ap T (.foldFn false σ p body) a o
  | fold {σ p body c fields fs gs o} : T c = some fields → Folds T (.foldFn true σ p body) fields fs (.ok gs) →
      Ev T ((p, .comp c gs) :: σ) body o → Ap T (.foldFn true σ p body) (.comp c fs) o
  | foldL {σ p body c fields fs m} : T c = some fields → Folds T (.foldFn true σ p body) fields fs (.trap m) →
      Ap T (.foldFn true σ p body) (.comp c fs) (.trap m)
  | more {h args a} : args.length + 1 < h.arity → Ap T (.part h args) a (.ok (.part h (args ++ [a])))
  | full {h args a v} : args.length + 1 = h.arity → h.result (args ++ [a]) = some v → Ap T (.part h args) a (.ok v)
  | iterate {n f x o} : Iter T n.toNat f x o → Ap T (.part (.builtin .iterate) [.int n, f]) x o
/-- `Folds T f fields fs o`: applying `f` to the values `fs` of the fields declared `rec`. -/
inductive Folds (T : Symbol → Option (List Field)) : SVal → List Field → List SVal → Out (List SVal) → Prop
  | nil {f} : Folds T f [] [] (.ok [])
  | ty {f t fields v vs ws} : Folds T f fields vs (.ok ws) → Folds T f (.ty t :: fields) (v :: vs) (.ok (v :: ws))
  | tyR {f t fields v vs m} : Folds T f fields vs (.trap m) → Folds T f (.ty t :: fields) (v :: vs) (.trap m)
  | rec_ {f fields v w vs ws} : Ap T f v (.ok w) → Folds T f fields vs (.ok ws) → Folds T f (.rec_ :: fields) (v :: vs) (.ok (w :: ws))
  | recL {f fields v vs m} : Ap T f v (.trap m) → Folds T f (.rec_ :: fields) (v :: vs) (.trap m)
  | recR {f fields v w vs m} : Ap T f v (.ok w) → Folds T f fields vs (.trap m) → Folds T f (.rec_ :: fields) (v :: vs) (.trap m)
/-- `Iter T n f x o`: applying `f` to `x`, `n` times. -/
inductive Iter (T : Symbol → Option (List Field)) : Nat → SVal → SVal → Out SVal → Prop
  | zero {f x} : Iter T 0 f x (.ok x)
  | succ {n f x y o} : Ap T f x (.ok y) → Iter T n f y o → Iter T (n + 1) f x o
  | succL {n f x m} : Ap T f x (.trap m) → Iter T (n + 1) f x (.trap m)
end

/-- Does a function of this type take a value of a declared type? -/
def overData (Δ : List TypeDecl) : IrTy → Bool
  | .fn (.named s _) _ => (declOf Δ s).isSome
  | _ => false

/-- The fields of the constructors of the declared types. -/
def fieldsIn (Δ : List TypeDecl) (c : Symbol) : Option (List Field) := (Δ.flatMap (·.ctors)).lookup c

/-- The values of the constructors of a type. -/
def ctorEnv (d : TypeDecl) : SEnv := (d.ctors.map fun c => (c.1, (Head.ctor c.1 c.2.length).value)).reverse

mutual
/-- `Runs T I w σ i o`: an item extends the environment, or stops at a hole. -/
inductive Runs (T : Symbol → Option (List Field)) (I : Symbol → Option Builtin) : World → SEnv → Item → Out SEnv → Prop
  | builtin {w σ s ex sch body b} : I s = some b → Runs T I w σ (.value s ex sch body) (.ok ((s, (Head.builtin b).value) :: σ))
  | value {w σ s ex sch body v} : I s = none → Ev T σ (body.map (overData w.decls)) (.ok v) → Runs T I w σ (.value s ex sch body) (.ok ((s, v) :: σ))
  | valueL {w σ s ex sch body m} : I s = none → Ev T σ (body.map (overData w.decls)) (.trap m) → Runs T I w σ (.value s ex sch body) (.trap m)
  | type {w σ d} : Runs T I w σ (.type d) (.ok (ctorEnv d ++ σ))
  | again {w σ key items} : key ∈ w.done → Runs T I w σ (.imports key items) (.ok σ)
  | imports {w σ key items o} : key ∉ w.done → RunsAll T I { w with done := key :: w.done } σ items o → Runs T I w σ (.imports key items) o
/-- ... for several items, in order. -/
inductive RunsAll (T : Symbol → Option (List Field)) (I : Symbol → Option Builtin) : World → SEnv → List Item → Out SEnv → Prop
  | nil {w σ} : RunsAll T I w σ [] (.ok σ)
  | cons {w σ i is σ' o} : Runs T I w σ i (.ok σ') → RunsAll T I (w.item I i) σ' is o → RunsAll T I w σ (i :: is) o
  | consL {w σ i is m} : Runs T I w σ i (.trap m) → RunsAll T I w σ (i :: is) (.trap m)
end

/-- What a module means: the outcome of its items, with the fields of all declared types. -/
def Means (I : Symbol → Option Builtin) (items : List Item) (o : Out SEnv) : Prop :=
  RunsAll (fieldsIn (World.items I {} items).decls) I {} [] items o

end Tic.Front
