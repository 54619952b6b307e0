/-
The state of the language server: open files, their contents, what was compiled from them and the diagnostics that were sent.

Models `ticc-lsp/src/main.rs:42-66` (`CompilationSet`), `:280-340` (`FileSet`), `:342-449` (`Compilation`, `CompilationModuleResolver`) and
`ticc-lsp/src/handlers.rs:83-155` (the notifications).  The compiler is a parameter: which imports a text has, in order, which file an import names, and what is made of
a text and the results of its imports; so is the disk, which may change between notifications.

Simplifications: a `HashMap` is an association list; its iteration order does not matter for what is proved.  Sending a message is an entry in a log.
A unit is compiled to the end when its diagnostics are sent (`api/errors.rs:7`), so requests find it complete.
-/

namespace Tic.Server

/-- `std::io::ErrorKind`: only `NotFound` is told apart, `main.rs:428-430`. -/
inductive IoKind (E : Type) where
  | notFound
  | other (e : E)
deriving DecidableEq, Repr

/-- `ticc::ImportError`, `ticc/src/lib.rs:242-247`. -/
inductive ImportError (E : Type) where
  | doesNotExist
  | importCycle
  | io (e : E)
deriving DecidableEq, Repr

/-- The compiler, as far as the server sees it. -/
structure Lang (K N T U E : Type) where
  /-- `""` -/
  empty : T
  /-- the paths of the import items of a text, in order; the builtin modules do not reach the resolver, `resolve.rs:93-94` -/
  imports : T → List N
  /-- `name_to_key`, `main.rs:394-398` -/
  join : K → N → Option K
  /-- `CompilationUnit::new(text, ..)`, compiled to the end, when the imports gave these results -/
  build : T → List (Except (ImportError E) U) → U

/-- What is on the disk: `read_file`, `main.rs:331-339`. -/
abbrev Disk (K T E : Type) := K → Except (IoKind E) T

/-- `FileContent`, `main.rs:286-290` -/
structure FileContent (T E : Type) where
  content : Except (IoKind E) T
  version : Nat

/-- `Dependency`, `main.rs:342-345` -/
structure Dependency (U : Type) where
  unit : Option U
  version : Nat

section
variable {K N T U E D : Type} [DecidableEq K]

/-- `HashMap::get` -/
def find {V : Type} (k : K) : List (K × V) → Option V
  | [] => none
  | (k', v) :: l => if k' = k then some v else find k l

/-- `HashMap::insert` -/
def insert {V : Type} (k : K) (v : V) : List (K × V) → List (K × V)
  | [] => [(k, v)]
  | (k', v') :: l => if k' = k then (k, v) :: l else (k', v') :: insert k v l

/-- `FileSet`, `main.rs:280-284` -/
abbrev Files (K T E : Type) := List (K × FileContent T E)

/-- `FileSet::set`, `main.rs:293-310` -/
def Files.set (files : Files K T E) (k : K) (text : T) : Files K T E :=
  match find k files with
  | some c => insert k ⟨.ok text, c.version + 1⟩ files
  | none => insert k ⟨.ok text, 1⟩ files

/-- `FileSet::get`, `main.rs:312-329`: a file that was not asked for before is read from the disk. -/
def Files.get (disk : Disk K T E) (files : Files K T E) (k : K) : FileContent T E × Files K T E :=
  match find k files with
  | some c => (c, files)
  | none => (⟨disk k, 1⟩, insert k ⟨disk k, 1⟩ files)

/-- What compiling one open file works on: its `dependencies` and the files. -/
structure St (K T U E : Type) where
  deps : List (K × Dependency U)
  files : Files K T E

/-- The lookups of the imports of one text, in order, `resolve.rs:88-127`. -/
def lookups {R S : Type} (look : N → S → Option (R × S)) : List N → S → Option (List R × S)
  | [], st => some ([], st)
  | n :: ns, st =>
    match look n st with
    | none => none
    | some (r, st) =>
      match lookups look ns st with
      | none => none
      | some (rs, st) => some (r :: rs, st)

/-- `CompilationModuleResolver::lookup`, `main.rs:400-448`.  The number bounds the depth of the recursion; `none` means that it was not enough. -/
def lookup (L : Lang K N T U E) (disk : Disk K T E) : Nat → K → N → St K T U E → Option (Except (ImportError E) U × St K T U E)
  | 0, _, _, _ => none
  | fuel + 1, current, name, st =>
    match L.join current name with
    | none => some (.error .doesNotExist, st)
    | some key =>
      let (source, files) := Files.get disk st.files key
      match find key st.deps with
      | some ⟨none, _⟩ => some (.error .importCycle, ⟨st.deps, files⟩)
      | some ⟨some unit, _⟩ => some (.ok unit, ⟨st.deps, files⟩)
      | none =>
        let deps := insert key ⟨none, source.version⟩ st.deps
        match source.content with
        | .error .notFound => some (.error .doesNotExist, ⟨deps, files⟩)
        | .error (.other e) => some (.error (.io e), ⟨deps, files⟩)
        | .ok text =>
          match lookups (lookup L disk fuel key) (L.imports text) ⟨deps, files⟩ with
          | none => none
          | some (rs, st) =>
            let unit := L.build text rs
            some (.ok unit, ⟨(match find key st.deps with
              | some d => insert key ⟨some unit, d.version⟩ st.deps
              | none => st.deps), st.files⟩)

/-- `Compilation`, `main.rs:347-353`.  The unit is made by `refresh` from a text and compiled when diagnostics are sent: before that it is `none`. -/
structure Compilation (K T U : Type) where
  sourceVersion : Nat
  text : T
  unit : Option U
  deps : List (K × Dependency U)

/-- `Compilation::is_any_dependency_stale`, `main.rs:356-358` -/
def stale (disk : Disk K T E) : List (K × Dependency U) → Files K T E → Bool × Files K T E
  | [], files => (false, files)
  | (k, d) :: ds, files =>
    let (c, files) := files.get disk k
    if c.version > d.version then (true, files) else stale disk ds files

/-- `Compilation::refresh`, `main.rs:360-386` -/
def refresh (L : Lang K N T U E) (disk : Disk K T E) (key : K) (comp : Compilation K T U) (files : Files K T E) : Bool × Compilation K T U × Files K T E :=
  let (modified, files) := stale disk comp.deps files
  let (source, files) := files.get disk key
  if modified || decide (comp.sourceVersion < source.version) then
    (true, ⟨source.version, (match source.content with | .ok t => t | .error _ => L.empty), none, []⟩, files)
  else (false, comp, files)

/-- The server: the files, the compilations of open files, and the diagnostics that were sent, the latest first. -/
structure Server (K T U E D : Type) where
  files : Files K T E
  comps : List (K × Compilation K T U)
  sent : List (K × List D)

/-- The first loop of `on_file_update`, `handlers.rs:112-122`. -/
def refreshAll (L : Lang K N T U E) (disk : Disk K T E) : List (K × Compilation K T U) → Files K T E → List K × List (K × Compilation K T U) × Files K T E
  | [], files => ([], [], files)
  | (k, comp) :: cs, files =>
    let (modified, comp, files) := refresh L disk k comp files
    let (ks, cs, files) := refreshAll L disk cs files
    (if modified then k :: ks else ks, (k, comp) :: cs, files)

/-- `send_diagnostics`, `handlers.rs:129-145`, `diagnostics.rs:5-27`: the unit is compiled to its end. -/
def sendDiagnostics (L : Lang K N T U E) (diags : U → List D) (fuel : Nat) (disk : Disk K T E) (s : Server K T U E D) (key : K) : Option (Server K T U E D) :=
  match find key s.comps with
  | none => none
  | some comp =>
    match comp.unit with
    | some u => some { s with sent := (key, diags u) :: s.sent }
    | none =>
      match lookups (lookup L disk fuel key) (L.imports comp.text) ⟨comp.deps, s.files⟩ with
      | none => none
      | some (rs, st) =>
        let u := L.build comp.text rs
        some ⟨st.files, insert key { comp with unit := some u, deps := st.deps } s.comps, (key, diags u) :: s.sent⟩

/-- The second loop, `handlers.rs:124-126`. -/
def sendAll (L : Lang K N T U E) (diags : U → List D) (fuel : Nat) (disk : Disk K T E) : List K → Server K T U E D → Option (Server K T U E D)
  | [], s => some s
  | k :: ks, s => (sendDiagnostics L diags fuel disk s k).bind (sendAll L diags fuel disk ks)

/-- `on_file_update`, `handlers.rs:108-127`; `sort` orders the keys. -/
def onFileUpdate (L : Lang K N T U E) (diags : U → List D) (sort : List K → List K) (fuel : Nat) (disk : Disk K T E) (s : Server K T U E D) : Option (Server K T U E D) :=
  let (ks, comps, files) := refreshAll L disk s.comps s.files
  sendAll L diags fuel disk (sort ks) ⟨files, comps, s.sent⟩

/-- The notifications about documents.  A change comes as a list of new texts, which is not empty (`content_changes[0]` would panic). -/
inductive Note (K T : Type) where
  | opened (key : K) (text : T)
  | changed (key : K) (text : T) (more : List T)
  | closed (key : K)

/-- `on_open`, `on_change`, `on_close`, `handlers.rs:83-106`; `add_file`, `remove_file`, `main.rs:52-66`. -/
def step (L : Lang K N T U E) (diags : U → List D) (sort : List K → List K) (fuel : Nat) (disk : Disk K T E) (s : Server K T U E D) : Note K T → Option (Server K T U E D)
  | .opened key text =>
    onFileUpdate L diags sort fuel disk { s with files := s.files.set key text, comps := insert key ⟨0, L.empty, none, []⟩ s.comps }
  | .changed key text _ => onFileUpdate L diags sort fuel disk { s with files := s.files.set key text }
  | .closed key => some { s with comps := s.comps.filter (fun c => c.1 ≠ key), sent := (key, []) :: s.sent }

/-- A history: each notification with the disk at its time. -/
def run (L : Lang K N T U E) (diags : U → List D) (sort : List K → List K) (fuel : Nat) : List (Disk K T E × Note K T) → Server K T U E D → Option (Server K T U E D)
  | [], s => some s
  | (disk, n) :: es, s => (step L diags sort fuel disk s n).bind (run L diags sort fuel es)

/-- The server at its start, `main.rs:247-258`. -/
def start : Server K T U E D := ⟨[], [], []⟩

/-! ### Specification: compiling a file from scratch -/

/-- The result of an import when the files have the contents `view`.  The table has the files that were looked up before, with their units if they are complete. -/
def specLookup (L : Lang K N T U E) (view : Disk K T E) : Nat → K → N → List (K × Option U) → Option (Except (ImportError E) U × List (K × Option U))
  | 0, _, _, _ => none
  | fuel + 1, current, name, table =>
    match L.join current name with
    | none => some (.error .doesNotExist, table)
    | some key =>
      match find key table with
      | some none => some (.error .importCycle, table)
      | some (some unit) => some (.ok unit, table)
      | none =>
        match view key with
        | .error .notFound => some (.error .doesNotExist, insert key none table)
        | .error (.other e) => some (.error (.io e), insert key none table)
        | .ok text =>
          match lookups (specLookup L view fuel key) (L.imports text) (insert key none table) with
          | none => none
          | some (rs, table) => some (.ok (L.build text rs), insert key (some (L.build text rs)) table)

/-- The unit of a file when the files have the contents `view`, compiled from nothing. -/
def specUnit (L : Lang K N T U E) (view : Disk K T E) (fuel : Nat) (key : K) : Option U :=
  match view key with
  | .error _ => none
  | .ok text => (lookups (specLookup L view fuel key) (L.imports text) []).map fun r => L.build text r.1

/-- The text of a file that the editor sent last, if it ever sent one; of several texts in one change the last counts. -/
def latest (k : K) : List (Disk K T E × Note K T) → Option T
  | [] => none
  | (_, .opened k' t) :: es => (latest k es).or (if k' = k then some t else none)
  | (_, .changed k' t more) :: es => (latest k es).or (if k' = k then some (more.getLast?.getD t) else none)
  | (_, .closed _) :: es => latest k es

/-- Whether a file is open. -/
def isOpen (k : K) : List (Disk K T E × Note K T) → Bool → Bool
  | [], b => b
  | (_, .opened k' _) :: es, b => isOpen k es (b || decide (k' = k))
  | (_, .changed _ _ _) :: es, b => isOpen k es b
  | (_, .closed k') :: es, b => isOpen k es (b && decide (k' ≠ k))

end

end Tic.Server
