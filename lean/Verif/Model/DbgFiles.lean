import Verif.Model.Cache

/-
Where debug information is looked for: `FindVmlinux` (internal/bpfsnoop/vmlinux.go 35-80), the directory given with
`--kernel-vmlinux` (flags.go 160-166), debug files of modules (addr2line.go 102-155), the table of modules (addr2line.go 217-302).

A path is a list of components, a name a list of characters; `filepath.Join`, `Dir`, `Clean` and `Base` are those of clean absolute
paths. Reading ELF and DWARF is not modelled: a debug file that was found is a number, `none` if it could not be read.
-/
namespace Bpfsnoop.Df

abbrev Name := List Char
abbrev Path := List Name

def t (x : String) : Name := x.toList

/-! ### vmlinux -/

/-- The places of `FindVmlinux` (vmlinux.go 50-58) for a release. -/
def locations (rel : Name) : List Path :=
  [[t "boot", t "vmlinux-" ++ rel],
   [t "lib", t "modules", rel, t "vmlinux-" ++ rel],
   [t "lib", t "modules", rel, t "build", t "vmlinux"],
   [t "usr", t "lib", t "modules", rel, t "kernel", t "vmlinux"],
   [t "usr", t "lib", t "debug", t "boot", t "vmlinux-" ++ rel],
   [t "usr", t "lib", t "debug", t "boot", t "vmlinux-" ++ rel ++ t ".debug"],
   [t "usr", t "lib", t "debug", t "lib", t "modules", rel, t "vmlinux"]]

/-- Outcome of a search: found, `ErrNotFound`, another error. -/
inductive Found (α : Type) where
  | ok (a : α)
  | notFound
  | err
deriving DecidableEq, Repr

/-- The loop over the places (vmlinux.go 60-79). -/
def firstFile (isFile : Path → Bool) : List Path → Found Path
  | [] => .notFound
  | p :: ps => if isFile p then .ok p else firstFile isFile ps

/-- What `--kernel-vmlinux` stands for (flags.go 160-166): the directory of a file, otherwise the directory itself; `none` if
the option is not given. `isFile` is `fileExists` (fs.go 8-11). -/
def givenDir (isFile : Path → Bool) (opt : Option Path) : Option Path :=
  opt.map fun p => if isFile p then p.dropLast else p

/-- `FindVmlinux` (vmlinux.go 35-80); `rel` is `none` if uname fails. -/
def findVmlinux (isFile : Path → Bool) (dir : Option Path) (rel : Option Name) : Found Path :=
  match dir with
  | some d => if isFile (d ++ [t "vmlinux"]) then .ok (d ++ [t "vmlinux"]) else .err
  | none =>
    match rel with
    | none => .err
    | some r => firstFile isFile (locations r)

/-- What `main` does about it (main.go 126-144): `none` is a fatal error, otherwise the vmlinux used; `wanted` is
`flags.Vmlinux()`. -/
def useVmlinux (wanted : Bool) : Found Path → Option (Option Path)
  | .ok p => some (if wanted then some p else none)
  | .notFound => some none
  | .err => none

/-! ### Modules -/

/-- A file (or a symbolic link), or a directory with its entries in the order of their names; a directory that cannot be read
has none. -/
inductive Node where
  | file (name : Name)
  | dir (name : Name) (readable : Bool) (entries : List Node)

def Node.name : Node → Name
  | .file n => n
  | .dir n _ _ => n

/-- What `filepath.Walk` calls the function with: the path and whether there is no error. -/
structure Visit where
  path : Path
  ok : Bool
deriving DecidableEq, Repr

mutual
/-- `filepath.walk` (Go, path/filepath/path.go): a file; a directory, then its entries in order. -/
def visits (pre : Path) : Node → List Visit
  | .file n => [⟨pre ++ [n], true⟩]
  | .dir n false _ => [⟨pre ++ [n], false⟩]
  | .dir n true es => ⟨pre ++ [n], true⟩ :: visitsAll (pre ++ [n]) es
/-- The loop over the entries. -/
def visitsAll (pre : Path) : List Node → List Visit
  | [] => []
  | e :: es => visits pre e ++ visitsAll pre es
end

/-- `strings.ReplaceAll(filepath.Base(path), "-", "_")` (addr2line.go 118). -/
def compName (p : Path) : Name := (p.getLast?.getD []).map fun c => if c = '-' then '_' else c

/-- addr2line.go 119. -/
def isKo (mod : Name) (p : Path) : Bool := compName p = mod ++ t ".ko" || compName p = mod ++ t ".ko.zst"

/-- The walk with the function of `findKernelModuleFileUnderDir` (addr2line.go 106-135): an error ends it. -/
def search (mod : Name) : List Visit → Found Path
  | [] => .notFound
  | v :: vs => if !v.ok then .err else if isKo mod v.path then .ok v.path else search mod vs

/-- `findKernelModuleFileUnderDir` (addr2line.go 102-136); the root does not exist: `none`. -/
def findKo (mod : Name) (pre : Path) : Option Node → Found Path
  | none => .err
  | some root => search mod (visits pre root)

/-! ### The table of modules -/

/-- `kmods` (addr2line.go 40): debug information of a module, or that there is none. -/
abbrev Kmods := List (Name × Option Nat)

/-- `getMod` (addr2line.go 277-301) for a module, with what `addKmod` (addr2line.go 217-275) would do now: the answer, `none` is
an error. -/
def getMod (m : Kmods) (mod : Name) (now : Found (Option Nat)) : Option (Option Nat) × Kmods :=
  match m.lookup mod with
  | some h => (some h, m)
  | none =>
    match now with
    | .ok h => (some h, (mod, h) :: m)
    | .notFound => (some none, (mod, none) :: m)
    | .err => (none, m)

/-- A history of look-ups: the module and what adding it would do at that time. -/
def lookups : Kmods → List (Name × Found (Option Nat)) → List (Option (Option Nat))
  | _, [] => []
  | m, (mod, now) :: r => (getMod m mod now).1 :: lookups (getMod m mod now).2 r

/-- The address looked up in the debug information of a module (addr2line.go 270, 323): `.text` is loaded at `textLoaded` and
has the address `textFile` in the file. -/
def modAddr (textLoaded textFile a : BitVec 64) : BitVec 64 := (Cache.Kaslr.mk textLoaded textFile).effectiveAddr a

end Bpfsnoop.Df
