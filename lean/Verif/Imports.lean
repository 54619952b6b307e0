/-!
# Module import resolution (CLI and language server)

Models `ticc/src/main.rs:213-306` (`FileModuleResolver`, `ChildResolver`), the import part of
`ticc/src/compiler/resolve.rs:88-126`, `ticc/src/main.rs:55-85` (what the command line tool does with
the errors), and `ticc-lsp/src/main.rs:283-461` (`FileSet`, `CompilationModuleResolver`).

Simplification: a file is represented by the list of paths its `import` items name, in source order
(`resolve.rs:88-95`; the builtin `std/...` modules never reach a module resolver, `resolve.rs:93-94`,
and are left out), and by a flag saying whether it has any other error diagnostic.  What a
`CompleteUnit` contains is not represented: only whether a unit was obtained.
-/

namespace Tic.Imports

/-! ## Paths -/

/-- A path as the list of its components, which is what `PathBuf` equality and hashing look at
(used at `ticc/src/main.rs:259` and by the cache at `:222`).  The leading `/` of an absolute path is the
component `"/"`. -/
abbrev Path := List String

/-- `PathBuf::pop` (`ticc/src/main.rs:246`): drops the last component, except the root. -/
def Path.pop (p : Path) : Path :=
  if p = ["/"] then p else p.dropLast

/-- `PathBuf::push` of one segment of a `/`-separated name (`ticc/src/main.rs:247-249`).  A segment
contains no `/`, so it is never absolute.  An empty segment only adds a trailing slash, and a `.` is
only a component at the very beginning of a relative path: both are invisible to path comparison. -/
def Path.push (p : Path) (seg : String) : Path :=
  if seg = "" then p
  else if seg = "." then (if p = [] then ["."] else p)
  else p ++ [seg]

/-- `ChildResolver::relative_lookup` (`ticc/src/main.rs:244-251`), on the segments of the name. -/
def relativeLookup (importer : Path) (segments : List String) : Path :=
  segments.foldl Path.push importer.pop

/-! ## File systems -/

/-- What the resolvers can see of the files: for every readable path the targets of its imports in
source order, and whether the file has an error diagnostic of its own. -/
structure Files (P : Type) where
  /-- `std::fs::read_to_string` (`ticc/src/main.rs:275`) followed by compilation up to the imports;
  `none` when the file cannot be read. -/
  imports : P → Option (List P)
  /-- whether compiling the file gives an error diagnostic that is not about an import -/
  broken : P → Bool

/-- Result of a lookup: `Ok(unit)`, `Err(ImportCycle)`, or one of `Err(DoesNotExist)`/`Err(Io(_))`
(`ticc/src/lib.rs:242-247`). -/
inductive Res where
  | ok
  | cycle
  | missing
deriving DecidableEq, Repr

/-- One import item that was looked up: the importing file, the file it names, and the result.  A
result other than `ok` becomes an error diagnostic at that import (`resolve.rs:97-125`). -/
structure Event (P : Type) where
  importer : P
  target : P
  res : Res
deriving DecidableEq, Repr

variable {P : Type} [DecidableEq P]

/-! ## The command line resolver -/

/-- `Props` (`ticc/src/main.rs:217-221`) together with a ghost log of all lookups, newest first. -/
structure St (P : Type) where
  cache : List P := []
  errors : Option P := none
  log : List (Event P) := []
deriving Repr

/-- Compiling one file, as far as imports are concerned (`resolve.rs:88-126` for every import item in
order, through `CompilationUnit::compile_up_to`).  Returns whether any import gave an error. -/
def compileImports (look : P → St P → Option (Res × St P)) (self : P) :
    List P → St P → Option (Bool × St P)
  | [], st => some (false, st)
  | t :: ts, st =>
    match look t st with
    | none => none
    | some (r, st) =>
      match compileImports look self ts { st with log := ⟨self, t, r⟩ :: st.log } with
      | none => none
      | some (e, st) => some (e || r != .ok, st)

/-- `ChildResolver::lookup` (`ticc/src/main.rs:254-306`).  `chain` is the list of paths of this resolver
and its ancestors, innermost first, which the loop of lines 257-266 walks.  The first argument bounds
the recursion depth; `none` means the bound was hit. -/
def lookup (fs : Files P) : Nat → List P → P → St P → Option (Res × St P)
  | 0, _, _, _ => none
  | n + 1, chain, p, st =>
    if p ∈ chain then some (.cycle, st)
    else if p ∈ st.cache then some (.ok, st)
    else
      match fs.imports p with
      | none => some (.missing, st)
      | some ts =>
        match compileImports (lookup fs n (p :: chain)) p ts st with
        | none => none
        | some (e, st) =>
          some (.ok, { st with
            cache := p :: st.cache
            errors := if e || fs.broken p then (if st.errors = none then some p else st.errors)
                      else st.errors })

/-- Compiling the root file from the command line (`ticc/src/main.rs:61-69`), whose text has been read
already.  The boolean says whether the root file itself has an error diagnostic. -/
def compileRoot (fs : Files P) (fuel : Nat) (root : P) (ts : List P) : Option (Bool × St P) :=
  match compileImports (lookup fs fuel [root]) root ts {} with
  | none => none
  | some (e, st) => some (e || fs.broken root, st)

/-- Whether the command line tool stops with exit code 1 after printing errors
(`ticc/src/main.rs:71-84`) rather than going on to check, emit or run the program. -/
def exitsWithError (r : Bool × St P) : Bool := r.2.errors.isSome || r.1

/-! ## The language server resolver -/

/-- The `dependencies` table (`ticc-lsp/src/main.rs:334-346`): each entry is a file and whether its
unit is there (`unit: Some(_)`); together with a ghost log of the lookups, newest first. -/
structure LSt (P : Type) where
  deps : List (P × Bool) := []
  log : List (Event P) := []
deriving Repr

/-- `HashMap::get` on the dependency table. -/
def depGet (p : P) : List (P × Bool) → Option Bool
  | [] => none
  | (q, b) :: r => if q = p then some b else depGet p r

/-- `get_mut(&key).unwrap().unit = Some(..)` (`ticc-lsp/src/main.rs:456`). -/
def depDone (p : P) : List (P × Bool) → List (P × Bool)
  | [] => []
  | (q, b) :: r => if q = p then (q, true) :: r else (q, b) :: depDone p r

/-- All imports of one file through the language server's resolver. -/
def lspCompile (look : P → LSt P → Option (Res × LSt P)) (self : P) :
    List P → LSt P → Option (LSt P)
  | [], st => some st
  | t :: ts, st =>
    match look t st with
    | none => none
    | some (r, st) => lspCompile look self ts { st with log := ⟨self, t, r⟩ :: st.log }

/-- `CompilationModuleResolver::lookup` (`ticc-lsp/src/main.rs:402-461`); the paths given here are
already joined (`name_to_key`, `:396-400`). -/
def lspLookup (fs : Files P) : Nat → P → LSt P → Option (Res × LSt P)
  | 0, _, _ => none
  | n + 1, p, st =>
    match depGet p st.deps with
    | some false => some (.cycle, st)
    | some true => some (.ok, st)
    | none =>
      let st := { st with deps := (p, false) :: st.deps }
      match fs.imports p with
      | none => some (.missing, st)
      | some ts =>
        match lspCompile (lspLookup fs n) p ts st with
        | none => none
        | some st => some (.ok, { st with deps := depDone p st.deps })

/-- `Compilation::refresh` on an opened file whose text has the given imports, followed by compiling
it (`ticc-lsp/src/main.rs:353-387`): the table starts empty, and the opened file is not in it.  The
results for the opened file's own imports are returned separately, in source order. -/
def lspOpenAux (fs : Files P) (fuel : Nat) (root : P) : List P → LSt P → Option (List Res × LSt P)
  | [], st => some ([], st)
  | t :: ts, st =>
    match lspLookup fs fuel t st with
    | none => none
    | some (r, st) =>
      match lspOpenAux fs fuel root ts { st with log := ⟨root, t, r⟩ :: st.log } with
      | none => none
      | some (rs, st) => some (r :: rs, st)

def lspOpen (fs : Files P) (fuel : Nat) (root : P) (ts : List P) : Option (List Res × LSt P) :=
  lspOpenAux fs fuel root ts {}

end Tic.Imports
