/-
Model of `internal/bpfsnoop/kallsyms.go`: building the symbol tables from the lines of
/proc/kallsyms and looking addresses and names up in them.
A Go run-time panic is modelled as `none` (outer option where the result is itself an option).
-/
namespace Bpfsnoop.Kallsyms

/-- `KsymEntry` (kallsyms.go 59-65). -/
structure Entry where
  addr : Nat
  name : String
  mod : String
  extra : List Nat
  duped : Bool
deriving DecidableEq, Repr

/-- A scanned line with at least three fields (kallsyms.go 119-130). The hexadecimal number is given as
the outcome of `strconv.ParseUint(fields[0],16,64)`; `none` is a parse error. Splitting a line into
fields is in Model/SysText. -/
structure Line where
  addr : Option Nat
  typ : String
  name : String
  /-- `strings.Trim(fields[3], "[]")`, `""` when there are only three fields -/
  mod : String
deriving DecidableEq, Repr

/-- `Kallsyms` (kallsyms.go 85-105). The maps `a2s`/`n2s` hold pointers to entries; entries live in
`heap` and the maps hold indices into it, because `sym.extra = append(...)`/`sym.duped = true` mutate
the entry reachable from both maps. The special data symbols are kept in `special`. -/
structure Tables where
  heap : List Entry
  a2s : List (Nat × Nat)
  n2s : List (String × Nat)
  mods : List String
  special : List (String × Nat)
deriving Repr

/-- The empty tables (kallsyms.go 112-116). -/
def Tables.empty : Tables := ⟨[], [], [], [], []⟩

/-- Go map assignment on an association list. -/
def put {α β} [DecidableEq α] (m : List (α × β)) (k : α) (v : β) : List (α × β) :=
  (k, v) :: m.filter (fun p => decide (p.1 ≠ k))

/-- Go map lookup. -/
def lookup {α β} [DecidableEq α] (m : List (α × β)) (k : α) : Option β :=
  (m.find? (fun p => decide (p.1 = k))).map Prod.snd

/-- `isKernelBuiltinMod` (kallsyms.go 54-56). -/
def isBuiltinMod (m : String) : Bool := m == "" || m.startsWith "__builtin" || m == "bpf"

/-- Names recorded by `matchData` (kallsyms.go 143-160). -/
def isData (n : String) : Bool :=
  n == "__start__bpf_raw_tp" || n == "__stop__bpf_raw_tp" || n == "bpf_trace_modules" || n == "x86_pmu"

/-- A text symbol enters the tables (kallsyms.go 163-181): the first symbol of a name owns the name;
later ones mark it (and themselves) as duplicated; the last symbol of an address owns the address. -/
def addText (t : Tables) (a : Nat) (name mod : String) : Tables :=
  match lookup t.n2s name with
  | some i =>
    { t with
      heap := (t.heap.modify i fun e => { e with extra := e.extra ++ [a], duped := true })
                ++ [Entry.mk a name mod [] true]
      a2s := put t.a2s a t.heap.length }
  | none =>
    { t with
      heap := t.heap ++ [Entry.mk a name mod [] false]
      n2s := put t.n2s name t.heap.length
      a2s := put t.a2s a t.heap.length }

/-- The special names of text symbols (kallsyms.go 183-195); `_stext` and the bpf syscall symbol are
recorded in `special` like the data symbols. -/
def addSpecial (sysBPF : String) (t : Tables) (a : Nat) (name : String) : Tables :=
  if name = "_stext" ∨ name = sysBPF ∨ isData name then { t with special := put t.special name a } else t

/-- Kernel modules in order of appearance (kallsyms.go 197-200). -/
def addMod (t : Tables) (mod : String) : Tables :=
  if !t.mods.contains mod && !isBuiltinMod mod then { t with mods := t.mods ++ [mod] } else t

/-- One iteration of the scan loop (kallsyms.go 162-214). `none` = NewKallsyms returns an error. -/
def step (sysBPF : String) (t : Tables) (l : Line) : Option Tables :=
  if l.typ = "t" ∨ l.typ = "T" then
    match l.addr with
    | none => none
    | some a => some (addMod (addSpecial sysBPF (addText t a l.name l.mod) a l.name) l.mod)
  else if l.typ = "D" ∨ l.typ = "d" then
    if isData l.name then l.addr.map fun a => { t with special := put t.special l.name a }
    else some t
  else if l.typ = "R" ∨ l.typ = "r" then
    if l.name = "btf_id_deny" then l.addr.map fun a => { t with special := put t.special l.name a }
    else some t
  else some t

/-- The scan loop (kallsyms.go 119-215). -/
def scan (sysBPF : String) : List Line → Tables → Option Tables
  | [], t => some t
  | l :: ls, t => (step sysBPF t l).bind (scan sysBPF ls)

/-- `ks.addrs = maps.Keys(ks.a2s); slices.Sort(ks.addrs)` (kallsyms.go 221-222). -/
def Tables.addrs (t : Tables) : List Nat := (t.a2s.map Prod.fst).mergeSort (fun a b => decide (a ≤ b))

/-- The search loop of `index` (kallsyms.go 246-260). `uint(i+j)>>1` is `(i+j)/2`. -/
def loop (addrs : List Nat) (addr i j : Nat) : Option Nat :=
  if h : i < j then
    let m := (i + j) / 2
    match addrs[m]? with
    | none => none
    | some am =>
      if am ≤ addr then
        if decide (m + 1 < addrs.length) && (match addrs[m+1]? with | some x => decide (x > addr) | none => false)
        then some m
        else loop addrs addr (m + 1) j
      else loop addrs addr i m
  else some (i - 1)
termination_by j - i
decreasing_by all_goals omega

/-- `Kallsyms.index` (kallsyms.go 240-261): outer `none` = panic (`addrs[0]` of an empty slice),
`some none` = not found. -/
def index (addrs : List Nat) (addr : Nat) : Option (Option Nat) :=
  match addrs[0]?, addrs[addrs.length - 1]? with
  | some lo, some hi =>
    if addr < lo ∨ addr > hi then some none
    else (loop addrs addr 0 addrs.length).map some
  | _, _ => none

/-- `Kallsyms.find` (kallsyms.go 264-271). -/
def find (t : Tables) (addr : Nat) : Option (Option Entry) :=
  match index t.addrs addr with
  | none => none
  | some none => some none
  | some (some i) => do
    let a ← t.addrs[i]?
    some ((lookup t.a2s a).bind (t.heap[·]?))

/-- `Kallsyms.next` (kallsyms.go 273-285). -/
def next (t : Tables) (addr : Nat) : Option (Option Entry) :=
  match index t.addrs addr with
  | none => none
  | some none => some none
  | some (some i) =>
    if i + 1 ≥ t.addrs.length then some none
    else do
      let a ← t.addrs[i + 1]?
      some ((lookup t.a2s a).bind (t.heap[·]?))

/-- The suffixes tried by `findBySymbol` (kallsyms.go 293-299). -/
def suffixes : List String := [".constprop.0", ".isra.0", ".isra.0.cold", ".cold", ".part.0"]

/-- `findBySymbol` (kallsyms.go 287-314). Go iterates a map in an unspecified order, so the last step
is a relation: any name with the `.llvm.` prefix may be returned. -/
inductive FindBySymbol (t : Tables) (symbol : String) : Option Nat → Prop
  | exact (i) : lookup t.n2s symbol = some i → FindBySymbol t symbol (some i)
  | suffix (i) : lookup t.n2s symbol = none →
      suffixes.findSome? (fun s => lookup t.n2s (symbol ++ s)) = some i → FindBySymbol t symbol (some i)
  | llvm (n i) : lookup t.n2s symbol = none →
      suffixes.findSome? (fun s => lookup t.n2s (symbol ++ s)) = none →
      lookup t.n2s n = some i → (symbol ++ ".llvm.").toList <+: n.toList → FindBySymbol t symbol (some i)
  | missing : lookup t.n2s symbol = none →
      suffixes.findSome? (fun s => lookup t.n2s (symbol ++ s)) = none →
      (∀ n i, lookup t.n2s n = some i → ¬ (symbol ++ ".llvm.").toList <+: n.toList) → FindBySymbol t symbol none

/-- `findSymbol` (kallsyms.go 316-322). -/
def findSymbol (t : Tables) (addr : Nat) : String :=
  match (lookup t.a2s addr).bind (t.heap[·]?) with
  | some e => e.name
  | none => ""

end Bpfsnoop.Kallsyms
