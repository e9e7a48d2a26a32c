import Verif.Model.CcNum
import Verif.Model.CcMach

/-
Model of the expression compiler `internal/cc`: evaluate.go, materialize.go, expr.go (compile,
CompileFilterExpr, the core of CompileEvalExpr), expr_value.go, compiler.go, bpf_probe_read.go,
bpf_direct_read.go, bpf_core_read.go, bpf_btf.go.

Abstractions: the parser (rsc.io/c2go/cc) is not modelled, expressions are given as syntax trees;
BTF is given as a table (`Btf`) with typedefs and qualifiers already stripped; error values are
`reject`, Go run-time panics are `panic`. Emission is modelled by returning the list of emitted
instructions; the two jump offsets patched by evaluateCond are computed from the block lengths.
-/
namespace Bpfsnoop.Cc

/-! ### Types -/

/-- A BTF type: an entry of the table, or a pointer made by the compiler (`&btf.Pointer{..}`). -/
inductive Ty
  | base (n : Nat)
  | ptr (t : Ty)
deriving DecidableEq, Repr

/-- `mybtf.UnderlyingType` followed by the type switches of the compiler. `comp` is a struct or
union with its identity. -/
inductive Kind
  | int
  | enum (vals : List (String × BitVec 64))
  | ptr (t : Ty)
  | array (elem : Ty)
  | comp (id : Nat)
  | void
  | other
deriving DecidableEq, Repr

/-- A member as found by `mybtf.FindStructMember`/`StructMemberOffset` (and the union variants):
type, byte offset, `member.Offset` in bits, `member.BitfieldSize`. -/
structure Member where
  ty : Ty
  byteOff : Nat
  bitOff : Nat
  bfSize : Nat
deriving DecidableEq, Repr

/-- BTF information: kinds, `btf.Sizeof` (`none` on error), members, and BTF ids usable with
`bpf_rdonly_cast` (`getPointerTypeID`, bpf_btf.go 24-46). -/
structure Btf where
  kind : Nat → Kind
  size : Nat → Option Nat
  member : Nat → String → Option Member
  castId : Nat → Option Nat

def Btf.kindOf (Γ : Btf) : Ty → Kind
  | .base n => Γ.kind n
  | .ptr t => .ptr t

/-- The kind of a possibly absent (`nil`) type. -/
def Btf.kindO (Γ : Btf) : Option Ty → Kind
  | some t => Γ.kindOf t
  | none => .other

/-- `btf.Sizeof`. -/
def Btf.sizeOf (Γ : Btf) : Ty → Option Nat
  | .base n => Γ.size n
  | .ptr _ => some 8

/-- `size, _ := btf.Sizeof(t)`: 0 on error. -/
def Btf.size0 (Γ : Btf) (t : Ty) : Nat := (Γ.sizeOf t).getD 0

def Btf.sizeO (Γ : Btf) : Option Ty → Nat
  | some t => Γ.size0 t
  | none => 0

/-- `canCalculate` (bpf_btf.go 14-22). -/
def Btf.canCalc (Γ : Btf) (t : Ty) : Bool :=
  match Γ.kindOf t with
  | .int | .enum _ | .ptr _ | .array _ => true
  | _ => false

/-! ### Expressions -/

/-- Binary operators that share `evaluate left; evaluate right`. -/
inductive Bop
  | add | sub | mul | div | mod | and | or | xor | lsh | rsh
  | eq | ne | lt | le | gt | ge | andand | oror
deriving DecidableEq, Repr

/-- Unary operators (`Paren` and `Plus` included). -/
inductive Uop | paren | plus | not | minus | twid | preinc | predec
deriving DecidableEq, Repr

/-- `cc.Expr` for the operators in the switch of `evaluate` (evaluate.go 19-135). In `index` the second
operand is kept as an expression: anything but a number is rejected. `cast` carries the result
of `cc2btf` (evaluate.go 1865-1922), `none` if that fails. `unsup` is every other operator. -/
inductive Expr
  | name (s : String)
  | num (text : List Char)
  | arrow (e : Expr) (f : String)
  | dot (e : Expr) (f : String)
  | index (e i : Expr)
  | indir (e : Expr)
  | addr (e : Expr)
  | cast (t : Option Ty) (e : Expr)
  | un (op : Uop) (e : Expr)
  | bin (op : Bop) (l r : Expr)
  | cond (c l r : Expr)
  | unsup
deriving DecidableEq, Repr

/-! ### Values (expr_value.go) -/

/-- `pendingOffset` (expr_value.go 43-51). The fields `inArray` and `bitfield` are never read. -/
structure Off where
  off : BitVec 64
  deref : Bool
  ty : Ty
  prev : Option Ty
deriving DecidableEq, Repr

/-- The base of a pending value (expr_value.go 64-69 and materialize.go 59-71): an argument, a
non-zero literal address, or a register. -/
inductive Base
  | var (i : Nat)
  | uptr (u : BitVec 64)
  | reg (r : Nat)
deriving DecidableEq, Repr

/-- `exprValue` (expr_value.go 53-77). -/
inductive Val
  | const (n : BitVec 64) (t : Option Ty)
  | pend (b : Base) (offs : List Off) (t : Ty) (m : Option Member)
  | mat (r : Nat) (t : Option Ty) (m : Option Member)
  | enumMaybe (s : String) (t : Option Ty)
deriving DecidableEq, Repr

def Val.ty : Val → Option Ty
  | .const _ t => t
  | .pend _ _ t _ => some t
  | .mat _ t _ => t
  | .enumMaybe _ t => t

def Val.mem : Val → Option Member
  | .const _ _ => none
  | .pend _ _ _ m => m
  | .mat _ _ m => m
  | .enumMaybe _ _ => none

/-- `isMemberBitfield` (evaluate.go 1861-1863). -/
def isBf : Option Member → Bool
  | some m => m.bfSize != 0
  | none => false

/-! ### Compiler state -/

/-- `MemoryReadMode` (expr.go 19-25). -/
inductive Mode | probe | core | direct
deriving DecidableEq, Repr

/-- What the compiler is given (`compiler` in compiler.go 25-44): BTF, parameters, read mode, reserved
stack bytes (8 or a multiple of 8), `bpf_fastcall`. `lo` is the lowest register `Alloc` may hand
out, 0 in the code. -/
structure Opts where
  Γ : Btf
  vars : List (String × Ty)
  mode : Mode
  reserved : Nat
  fastcall : Bool
  lo : Nat

/-- The mutable part of the compiler: register allocator and `labelExitUsed`. -/
structure CSt where
  used : Regs
  exitUsed : Bool

inductive Err | reject | panic
deriving DecidableEq, Repr

/-- A compiler action: fails, or yields a result, the new state and the instructions emitted. -/
def CM (α : Type) := CSt → Except Err (α × CSt × List Insn)

instance : Monad CM where
  pure a := fun s => .ok (a, s, [])
  bind x f := fun s =>
    match x s with
    | .error e => .error e
    | .ok (a, s1, c1) =>
      match f a s1 with
      | .error e => .error e
      | .ok (b, s2, c2) => .ok (b, s2, c1 ++ c2)

def reject {α : Type} : CM α := fun _ => .error .reject
def panic {α : Type} : CM α := fun _ => .error .panic

/-- `c.emit` (compiler.go 110-112). -/
def emit (is : List Insn) : CM Unit := fun s => .ok ((), s, is)

/-- `c.regalloc.Alloc` with its error check. -/
def allocM (o : Opts) : CM Nat := fun s =>
  match alloc o.lo s.used with
  | none => .error .reject
  | some (r, u) => .ok (r, { s with used := u }, [])

/-- `c.regalloc.Free`. -/
def freeM (r : Nat) : CM Unit := fun s => .ok ((), { s with used := free s.used r }, [])

/-- `c.labelExitUsed = true`. -/
def useExit : CM Unit := fun s => .ok ((), { s with exitUsed := true }, [])

/-- `if b { x }`. -/
def whenM (b : Bool) (x : CM Unit) : CM Unit := if b then x else pure ()

/-- Run an action and give its instructions to the caller instead of emitting them. -/
def capture {α : Type} (x : CM α) : CM (α × List Insn) := fun s =>
  match x s with
  | .error e => .error e
  | .ok (a, s1, c) => .ok ((a, c), s1, [])

/-! ### Memory reads -/

/-- The registers among R1..Rn in use (expr.go 217-223, 241-247). -/
def usedNr (u : Regs) (n : Nat) : Nat := ((List.range n).filter fun i => u (1 + i)).length

/-- `pushUsedCallerSavedRegsN` (expr.go 216-234). -/
def pushRegs (o : Opts) (n : Nat) : CM Unit := fun s =>
  let k := usedNr s.used n
  let offset : Int := o.reserved + k * 8
  .ok ((), s, (if s.used 0 then [.stStack (-offset - 8) 0] else []) ++
    (List.range k).map fun i : Nat => .stStack (-offset + i * 8) (1 + i))

/-- `popUsedCallerSavedRegsN` (expr.go 240-259). -/
def popRegs (o : Opts) (n : Nat) : CM Unit := fun s =>
  let k := usedNr s.used n
  let offset : Int := o.reserved + k * 8
  .ok ((), s, ((List.range k).map fun i : Nat => .ldStack (1 + i) (-offset + i * 8)) ++
    (if s.used 0 then [.ldStack 0 (-offset - 8)] else []))

/-- `if off != 0 { emit Add.Imm(reg, int32(off)) }`. -/
def addOff (r : Nat) (k : BitVec 64) : List Insn := if k = 0 then [] else [.aluImm .add r k]

/-- The loop of `emitProbeRead` (bpf_probe_read.go 18-48). -/
def probeLoop (reg : Nat) : List Off → List Insn
  | [] => []
  | [x] =>
    addOff 3 x.off ++
    if !x.deref then (if reg ≠ 3 then [.movReg reg 3] else [])
    else [.movImm 2 8, .movReg 1 10, .aluImm .add 1 (-8), .callProbe, .ldStack reg (-8)]
  | x :: y :: r =>
    addOff 3 x.off ++
    (if !x.deref then []
     else [.movImm 2 8, .movReg 1 10, .aluImm .add 1 (-8), .callProbe, .ldStack 3 (-8), .jexit 3]) ++
    probeLoop reg (y :: r)

/-- `labelExitUsed` is set when a dereference is not the last step. -/
def nonLastDeref : List Off → Bool
  | [] => false
  | [_] => false
  | x :: y :: r => x.deref || nonLastDeref (y :: r)

/-- `emitProbeRead` (bpf_probe_read.go 9-49). -/
def emitProbeRead (o : Opts) (offs : List Off) (reg : Nat) : CM Unit := do
  pushRegs o 5
  emit (if reg ≠ 3 then [.movReg 3 reg] else [])
  emit (probeLoop reg offs)
  whenM (nonLastDeref offs) useExit
  popRegs o 5

/-- `emitDirectRead` (bpf_direct_read.go 9-30). -/
def directLoop (reg : Nat) : List Off → List Insn
  | [] => []
  | [x] => if !x.deref then addOff reg x.off else [.ldx reg reg x.off 8]
  | x :: y :: r =>
    (if !x.deref then addOff reg x.off else [.ldx reg reg x.off 8, .jexit reg]) ++
    directLoop reg (y :: r)

def emitDirectRead (offs : List Off) (reg : Nat) : CM Unit := do
  emit (directLoop reg offs)
  whenM (nonLastDeref offs) useExit

/-- `canRdonlyCast` (bpf_core_read.go 14-30): whether the pointer can be cast and the BTF id;
`none` is the error for a type that is not in the BTF. -/
def canRdonlyCast (Γ : Btf) (t : Option Ty) : Option (Option Nat) :=
  match Γ.kindO t with
  | .ptr t' =>
    match Γ.kindOf t' with
    | .comp id => (Γ.castId id).map some
    | _ => some none
  | _ => some none

/-- `canReadByRdonlyCast` (bpf_core_read.go 32-39). -/
def canReadByRdonlyCast (Γ : Btf) (t : Ty) : Bool :=
  match Γ.kindOf t with
  | .ptr _ | .int | .enum _ => true
  | _ => false

/-- `sizeof` (bpf_btf.go 48-66): a load width; `none` on error. -/
def loadSize (Γ : Btf) (t : Ty) : Option Nat :=
  (Γ.sizeOf t).map fun s => if s = 1 ∨ s = 2 ∨ s = 4 then s else 8

/-- `coreReadByProbeRead` (bpf_core_read.go 49-63); the member offset is not added. -/
def coreProbe (reg : Nat) (last : Bool) : List Insn :=
  [.movReg 3 1, .movImm 2 8, .movReg 1 10, .aluImm .add 1 (-8), .callProbe,
   .ldStack (if last && reg ≠ 1 then reg else 1) (-8)]

/-- One step of the loop of `emitCoreRead` (bpf_core_read.go 79-125). -/
def coreStep (o : Opts) (reg : Nat) (x : Off) (last : Bool) : CM Unit :=
  if !x.deref then emit (addOff 1 x.off ++ if last && reg ≠ 1 then [.movReg reg 1] else [])
  else
    match canRdonlyCast o.Γ x.prev with
    | none => reject
    | some none => emit (coreProbe reg last)
    | some (some id) =>
      match loadSize o.Γ x.ty with
      | none => reject
      | some size =>
        if !canReadByRdonlyCast o.Γ x.ty then emit (coreProbe reg last)
        else if last then
          emit ([.movImm 2 (BitVec.ofNat 64 id), .callCast] ++ if reg ≠ 1 then [.ldx reg 0 x.off size] else [])
        else do
          useExit
          emit [.movImm 2 (BitVec.ofNat 64 id), .callCast, .ldx 1 0 x.off size, .jexit 1]

/-- The loop of `emitCoreRead` (bpf_core_read.go 79-125). -/
def coreLoop (o : Opts) (reg : Nat) : List Off → CM Unit
  | [] => pure ()
  | x :: r => do
    coreStep o reg x r.isEmpty
    coreLoop o reg r

/-- `emitCoreRead` (bpf_core_read.go 66-126). -/
def emitCoreRead (o : Opts) (offs : List Off) (reg : Nat) : CM Unit := do
  let n := if o.fastcall then 2 else 5
  pushRegs o n
  emit (if reg ≠ 1 then [.movReg 1 reg] else [])
  coreLoop o reg offs
  popRegs o n

/-- `emitOffsetChain` (materialize.go 98-129). -/
def emitOffsetChain (o : Opts) (offs : List Off) (reg : Nat) : CM Unit :=
  if offs.all (fun x => !x.deref) then emit (offs.flatMap fun x => addOff reg x.off)
  else
    match o.mode with
    | .core => emitCoreRead o offs reg
    | .direct => emitDirectRead offs reg
    | .probe => emitProbeRead o offs reg

/-! ### Materialization (materialize.go) -/

/-- `(uint64(1) << BitfieldSize) - 1` in Go. -/
def bfMask (n : Nat) : BitVec 64 := (1 <<< n) - 1

/-- `emitBitfieldExtract` (materialize.go 132-140). -/
def bitfieldExtract (m : Member) (reg : Nat) : List Insn :=
  (if m.bitOff % 8 ≠ 0 then [.aluImm .rsh reg (BitVec.ofNat 64 (m.bitOff % 8))] else []) ++
  [.aluImm .and reg (bfMask m.bfSize)]

/-- `adjustRegisterSize` (materialize.go 143-162). -/
def adjustSize (Γ : Btf) (t : Ty) (reg : Nat) : List Insn :=
  match Γ.sizeOf t with
  | some 1 => [.aluImm .and reg 0xFF]
  | some 2 => [.aluImm .and reg 0xFFFF]
  | some 4 => [.aluImm .lsh reg 32, .aluImm .rsh reg 32]
  | _ => []

/-- Loading the base of a pending value (materialize.go 58-71). -/
def loadBase (reg : Nat) : Base → List Insn
  | .var i => [.ldx reg 9 (BitVec.ofNat 64 (i * 8)) 8]
  | .uptr u => [.movImm reg u]
  | .reg r => [.movReg reg r]

/-- `materialize` (materialize.go 15-94). -/
def materialize (o : Opts) (v : Val) : CM (Nat × Option Ty × Option Member) :=
  match v with
  | .mat r t m => pure (r, t, m)
  | .const n t => do
    let r ← allocM o
    emit [.movImm r n]
    pure (r, t, none)
  | .pend b offs t m => do
    let r ← allocM o
    emit (loadBase r b)
    whenM (!offs.isEmpty) (emitOffsetChain o offs r)
    emit (match m with
      | some mem => if mem.bfSize != 0 then bitfieldExtract mem r else adjustSize o.Γ t r
      | none => adjustSize o.Γ t r)
    pure (r, some t, m)
  | .enumMaybe _ _ => reject

/-! ### Evaluation (evaluate.go) -/

/-- `slices.Index(c.vars, name)`. -/
def findVar (name : String) : List (String × Ty) → Nat → Option (Nat × Ty)
  | [], _ => none
  | (n, t) :: r, i => if n = name then some (i, t) else findVar name r (i + 1)

/-- `evaluateName` (evaluate.go 139-157). -/
def evaluateName (o : Opts) (s : String) : Val :=
  if s = "NULL" ∨ s = "false" then .const 0 none
  else if s = "true" then .const 1 none
  else match findVar s o.vars 0 with
    | none => .enumMaybe s none
    | some (i, t) => .pend (.var i) [] t none

/-- Replace the last entry of an offset chain. -/
def mapLast (f : Off → Off) : List Off → List Off
  | [] => []
  | [x] => [f x]
  | x :: y :: r => x :: mapLast f (y :: r)

/-- `prevBtf` (expr_value.go 135-140). -/
def prevBtf (offs : List Off) : Option Ty := (offs.getLast?).bind (·.prev)

def isArray (Γ : Btf) (t : Ty) : Bool := match Γ.kindOf t with | .array _ => true | _ => false

/-- `accessMember`, `accessMemberPending`, `accessMemberMaterialized` (evaluate.go 198-317). -/
def accessMember (o : Opts) (base : Val) (f : String) (arrow : Bool) : CM Val :=
  if isBf base.mem then reject
  else
    let k := o.Γ.kindO base.ty
    let target : Option Kind :=
      if arrow then match k with | .ptr t => some (o.Γ.kindOf t) | _ => none
      else some k
    match target with
    | some (.comp id) =>
      match o.Γ.member id f with
      | none => reject
      | some mem =>
        let arr := isArray o.Γ mem.ty
        let m := if arr then none else some mem
        match base with
        | .pend b offs t _ =>
          if !arrow then
            if offs.isEmpty then reject
            else
              let offs := mapLast (fun x => { x with off := x.off + BitVec.ofNat 64 mem.byteOff, ty := mem.ty }) offs
              let offs := if arr then mapLast (fun x => { x with deref := false }) offs else offs
              pure (.pend b offs mem.ty m)
          else
            pure (.pend b (offs ++ [⟨BitVec.ofNat 64 mem.byteOff, !arr, mem.ty, some t⟩]) mem.ty m)
        | .mat r t _ =>
          if !arrow then reject
          else pure (.pend (.reg r) [⟨BitVec.ofNat 64 mem.byteOff, !arr, mem.ty, t⟩] mem.ty m)
        | _ => reject
    | _ => reject

/-- `evaluateIndex` after the base has been evaluated (evaluate.go 326-392). -/
def evaluateIndex (o : Opts) (base : Val) (i : Expr) : CM Val :=
  if isBf base.mem then reject
  else match i with
    | .num text =>
      match parseNumber text with
      | none => reject
      | some n =>
        let elem : Option Ty := match o.Γ.kindO base.ty with
          | .ptr t => some t
          | .array t => some t
          | _ => none
        match elem with
        | none => reject
        | some t =>
          if o.Γ.size0 t = 0 then reject
          else
            let off := n * BitVec.ofNat 64 (o.Γ.size0 t)
            match base with
            | .pend b offs _ _ => pure (.pend b (offs ++ [⟨off, false, t, prevBtf offs⟩]) t none)
            | .mat r t0 _ => pure (.pend (.reg r) [⟨off, false, t, t0⟩] t none)
            | _ => reject
    | _ => reject

/-- `evaluateIndir` after the base has been evaluated (evaluate.go 401-438). -/
def evaluateIndir (o : Opts) (base : Val) : CM Val :=
  if isBf base.mem then reject
  else match o.Γ.kindO base.ty with
    | .ptr t =>
      match base with
      | .pend b offs t0 _ => pure (.pend b (offs ++ [⟨0, true, t, some t0⟩]) t none)
      | .mat r t0 _ => pure (.pend (.reg r) [⟨0, true, t, t0⟩] t none)
      | _ => reject
    | _ => reject

/-- `evaluateAddr` after the operand has been evaluated (evaluate.go 447-461). -/
def evaluateAddr (base : Val) : CM Val :=
  match base with
  | .pend b offs t _ =>
    if offs.isEmpty then reject
    else pure (.pend b (mapLast (fun x => { x with deref := false, ty := .ptr t }) offs) (.ptr t) none)
  | _ => reject

/-- `evaluateCast` of a number (evaluate.go 466-476); address 0 leaves the base register at its zero
value, R0. -/
def castLit (t : Ty) (text : List Char) : CM Val :=
  match parseUnsigned text with
  | none => reject
  | some n =>
    if BitVec.ofNat 64 n = 0 then pure (.pend (.reg 0) [] t none)
    else pure (.pend (.uptr (BitVec.ofNat 64 n)) [] t none)

/-- `evaluateCast` of anything else (evaluate.go 489-497). -/
def castVal (t : Ty) : Val → Val
  | .const n _ => .const n (some t)
  | .pend b offs _ m => .pend b (mapLast (fun x => { x with ty := t }) offs) t m
  | .mat r _ m => .mat r (some t) m
  | .enumMaybe s _ => .enumMaybe s (some t)

/-- `extractEnum` (evaluate.go 1924-1939). -/
def extractEnum (Γ : Btf) (t : Option Ty) (s : String) : Option (BitVec 64) :=
  match Γ.kindO t with
  | .enum vals => vals.lookup s
  | _ => none

/-- `resolveEnums` (evaluate.go 1792-1827): a name on one side is looked up in the type of a run-time
value on the other side. -/
def resolveEnums (o : Opts) (l r : Val) : CM (Val × Val) :=
  match l, r with
  | .enumMaybe s _, .mat _ t _ =>
    match extractEnum o.Γ t s with
    | none => reject
    | some n => pure (.const n none, r)
  | .enumMaybe s _, .pend _ _ t _ =>
    match extractEnum o.Γ (some t) s with
    | none => reject
    | some n => pure (.const n none, r)
  | .mat _ t _, .enumMaybe s _ =>
    match extractEnum o.Γ t s with
    | none => reject
    | some n => pure (l, .const n none)
  | .pend _ _ t _, .enumMaybe s _ =>
    match extractEnum o.Γ (some t) s with
    | none => reject
    | some n => pure (l, .const n none)
  | _, _ => pure (l, r)

/-- `adjustNumForType` (evaluate.go 1841-1858). -/
def adjustNum (Γ : Btf) (n : BitVec 64) (t : Option Ty) (m : Option Member) : BitVec 64 :=
  if isBf m then n &&& bfMask ((m.map (·.bfSize)).getD 0)
  else match Γ.sizeO t with
    | 1 => n &&& 0xFF
    | 2 => n &&& 0xFFFF
    | 4 => n &&& 0xFFFFFFFF
    | _ => n

/-- `adjustNums` (evaluate.go 1830-1838). -/
def adjustNums (Γ : Btf) (l r : Val) : Val × Val :=
  match l, r with
  | .const n t, .mat _ t' m => (.const (adjustNum Γ n t' m) t, r)
  | .const n t, .pend _ _ t' m => (.const (adjustNum Γ n (some t') m) t, r)
  | .mat _ t' m, .const n t => (l, .const (adjustNum Γ n t' m) t)
  | .pend _ _ t' m, .const n t => (l, .const (adjustNum Γ n (some t') m) t)
  | _, _ => (l, r)

/-- `if v.isPending() && !canCalculate(v.btf)` of every binary operator. -/
def checkCalc (o : Opts) (v : Val) : CM Unit :=
  match v with
  | .pend _ _ t _ => if o.Γ.canCalc t then pure () else reject
  | _ => pure ()

/-- `addConstantToPending` (evaluate.go 576-618). -/
def addConst (o : Opts) (b : Base) (offs : List Off) (t : Ty) (m : Option Member) (n : BitVec 64) :
    CM Val :=
  if n = 0 then pure (.pend b offs t m)
  else
    match o.Γ.kindOf t with
    | .ptr t' =>
      match o.Γ.kindOf t' with
      | .void => pure (.pend b (offs ++ [⟨n, false, t, prevBtf offs⟩]) t none)
      | _ =>
        if o.Γ.size0 t' = 0 then reject
        else pure (.pend b (offs ++ [⟨n * BitVec.ofNat 64 (o.Γ.size0 t'), false, t, prevBtf offs⟩]) t none)
    | .array t' =>
      if o.Γ.size0 t' = 0 then reject
      else pure (.pend b (offs ++ [⟨n * BitVec.ofNat 64 (o.Γ.size0 t'), false, .ptr t', prevBtf offs⟩]) t none)
    | _ => pure (.pend b (offs ++ [⟨n, false, t, prevBtf offs⟩]) t none)

/-- Materialize both operands, emit `k`, free the right register (the tail of every binary operator,
e.g. evaluate.go 544-572). -/
def binRun (o : Opts) (l r : Val) (k : Nat → Option Ty → Nat → List Insn) : CM Val := do
  let (rl, tl, _) ← materialize o l
  let (rr, _, _) ← materialize o r
  emit (k rl tl rr)
  freeM rr
  pure (.mat rl tl none)

/-- Materialize one operand and emit `k` (the constant-operand and unary forms). -/
def unRun (o : Opts) (v : Val) (k : Nat → List Insn) : CM Val := do
  let (r, t, _) ← materialize o v
  emit (k r)
  pure (.mat r t none)

/-- Scaling of the right operand of + and - (evaluate.go 556-567, 672-683). -/
def scale (Γ : Btf) (tl : Option Ty) (rr : Nat) : List Insn :=
  match Γ.kindO tl with
  | .ptr t => if Γ.size0 t > 1 then [.aluImm .mul rr (BitVec.ofNat 64 (Γ.size0 t))] else []
  | .array t => if Γ.size0 t > 1 then [.aluImm .mul rr (BitVec.ofNat 64 (Γ.size0 t))] else []
  | _ => []

/-- `addValues` (evaluate.go 516-573). -/
def addVals (o : Opts) (l r : Val) : CM Val :=
  match l, r with
  | .const a _, .const b _ => pure (.const (a + b) none)
  | _, _ => do
    checkCalc o l
    checkCalc o r
    match l, r with
    | .pend b offs t m, .const n _ => addConst o b offs t m n
    | .const n _, .pend b offs t m => addConst o b offs t m n
    | _, _ => binRun o l r fun rl tl rr => scale o.Γ tl rr ++ [.aluReg .add rl rr]

/-- `subValues` (evaluate.go 636-689). -/
def subVals (o : Opts) (l r : Val) : CM Val :=
  match l, r with
  | .const a _, .const b _ => pure (.const (a - b) none)
  | _, _ => do
    checkCalc o l
    checkCalc o r
    match l, r with
    | .pend b offs t m, .const n _ => addConst o b offs t m (-n)
    | _, _ => binRun o l r fun rl tl rr => scale o.Γ tl rr ++ [.aluReg .sub rl rr]

/-- `evaluateMul` (evaluate.go 692-734). -/
def mulVals (o : Opts) (l r : Val) : CM Val :=
  match l, r with
  | .const a _, .const b _ => pure (.const (a * b) none)
  | _, _ => do
    checkCalc o l
    checkCalc o r
    binRun o l r fun rl _ rr => [.aluReg .mul rl rr]

/-- The run-time guard of division and modulo (evaluate.go 784-788, 846-849). -/
def guarded (op : Alu) (rl rr : Nat) : List Insn :=
  [.jmpImm .ne rr 0 2, .movImm rl 0, .ja 1, .aluReg op rl rr]

/-- `evaluateDiv` (evaluate.go 737-792). -/
def divVals (o : Opts) (l r : Val) : CM Val :=
  match l, r with
  | .const a _, .const b _ => if b = 0 then reject else pure (.const (a.sdiv b) none)
  | _, .const b _ =>
    if b = 0 then reject
    else do
      checkCalc o l
      unRun o l fun rl => [.aluImm .div rl b]
  | _, _ => do
    checkCalc o l
    checkCalc o r
    binRun o l r fun rl _ rr => guarded .div rl rr

/-- `evaluateMod` (evaluate.go 795-853). -/
def modVals (o : Opts) (l r : Val) : CM Val :=
  match l, r with
  | .const a _, .const b _ => if b = 0 then reject else pure (.const (a.srem b) none)
  | _, .const b _ =>
    if b = 0 then reject
    else do
      checkCalc o l
      unRun o l fun rl => if b = 1 then [.movImm rl 0] else [.aluImm .mod rl b]
  | _, _ => do
    checkCalc o l
    checkCalc o r
    binRun o l r fun rl _ rr => guarded .mod rl rr

/-- `evaluateAnd`, `evaluateOr`, `evaluateXor` (evaluate.go 856-1003). -/
def bitVals (o : Opts) (op : Alu) (l r : Val) : CM Val :=
  match l, r with
  | .const a _, .const b _ => pure (.const (aluEval op a b) none)
  | _, .const b _ => do
    checkCalc o l
    unRun o l fun rl => [.aluImm op rl b]
  | _, _ => do
    checkCalc o l
    checkCalc o r
    binRun o l r fun rl _ rr => [.aluReg op rl rr]

/-- Go's `<<`/`>>` on `int64` constants (negative counts panic). -/
def foldShift (left : Bool) (a b : BitVec 64) : CM Val :=
  if b.slt 0 then panic
  else pure (.const (if left then a <<< b.toNat else a.sshiftRight b.toNat) none)

/-- `evaluateLsh`, `evaluateRsh` (evaluate.go 1006-1117). -/
def shiftVals (o : Opts) (left : Bool) (l r : Val) : CM Val :=
  let op : Alu := if left then .lsh else .rsh
  match l, r with
  | .const a _, .const b _ => foldShift left a b
  | _, .const b _ => do
    checkCalc o l
    let (rl, tl, ml) ← materialize o l
    if b.slt 0 then reject
    else if b = 0 then pure (.mat rl tl ml)
    else do
      emit [.aluImm op rl b]
      pure (.mat rl tl none)
  | _, _ => do
    checkCalc o l
    checkCalc o r
    binRun o l r fun rl _ rr => [.jmpImm .le rr 0 1, .aluReg op rl rr]

/-- `emitReg2bool` (compiler.go 118-124). -/
def reg2bool (r : Nat) : List Insn := [.movImm r 1, .ja 1, .aluReg .xor r r]

/-- The jump condition that skips the "true" branch of a comparison. -/
def negCmp : Cmp → Cmp
  | .eq => .ne | .ne => .eq | .lt => .ge | .le => .gt | .gt => .le | .ge => .lt

/-- Go's signed comparison of two constants. -/
def foldCmp : Cmp → BitVec 64 → BitVec 64 → Bool
  | .eq, a, b => a == b
  | .ne, a, b => a != b
  | .lt, a, b => a.slt b
  | .le, a, b => a.sle b
  | .gt, a, b => b.slt a
  | .ge, a, b => b.sle a

def b2n (b : Bool) : BitVec 64 := if b then 1 else 0

/-- `evaluateEqEq` .. `evaluateGtEq` (evaluate.go 1144-1465), after name resolution. -/
def cmpVals (o : Opts) (c : Cmp) (l r : Val) : CM Val :=
  match adjustNums o.Γ l r with
  | (.const a _, .const b _) => pure (.const (b2n (foldCmp c a b)) none)
  | (l, .const b _) => do
    checkCalc o l
    unRun o l fun rl => .jmpImm (negCmp c) rl b 2 :: reg2bool rl
  | (l, r) => do
    checkCalc o l
    checkCalc o r
    binRun o l r fun rl _ rr => .jmpReg (negCmp c) rl rr 2 :: reg2bool rl

/-- `if left.isMaterialized() { Free(left.reg) }`. -/
def freeIfMat : Val → CM Unit
  | .mat r _ _ => freeM r
  | _ => pure ()

/-- `x != 0` as a register value, the tail of the half-constant && and ||. -/
def truthy (r : Nat) : List Insn := .jmpImm .eq r 0 2 :: reg2bool r

/-- `evaluateAndAnd` (evaluate.go 1468-1543). -/
def andandVals (o : Opts) (l r : Val) : CM Val :=
  match l, r with
  | .const a _, .const b _ => pure (.const (b2n (a != 0 && b != 0)) none)
  | .const a _, _ => do
    checkCalc o r
    if a = 0 then pure (.const 0 none) else unRun o r truthy
  | _, .const b _ => do
    checkCalc o l
    if b = 0 then do
      freeIfMat l
      pure (.const 0 none)
    else unRun o l truthy
  | _, _ => do
    checkCalc o l
    checkCalc o r
    binRun o l r fun rl _ rr => .jmpImm .eq rl 0 3 :: .jmpImm .eq rr 0 2 :: reg2bool rl

/-- `evaluateOrOr` (evaluate.go 1546-1622). -/
def ororVals (o : Opts) (l r : Val) : CM Val :=
  match l, r with
  | .const a _, .const b _ => pure (.const (b2n (a != 0 || b != 0)) none)
  | .const a _, _ => do
    checkCalc o r
    if a ≠ 0 then pure (.const 1 none) else unRun o r truthy
  | _, .const b _ => do
    checkCalc o l
    if b ≠ 0 then do
      freeIfMat l
      pure (.const 1 none)
    else unRun o l truthy
  | _, _ => do
    checkCalc o l
    checkCalc o r
    binRun o l r fun rl _ rr =>
      [.jmpImm .ne rl 0 3, .jmpImm .ne rr 0 2, .aluReg .xor rl rl, .ja 1, .movImm rl 1]

/-- Binary operators on evaluated operands; all start with `resolveEnums`. -/
def binVals (o : Opts) (op : Bop) (l0 r0 : Val) : CM Val := do
  let (l, r) ← resolveEnums o l0 r0
  match op with
  | .add => addVals o l r
  | .sub => subVals o l r
  | .mul => mulVals o l r
  | .div => divVals o l r
  | .mod => modVals o l r
  | .and => bitVals o .and l r
  | .or => bitVals o .or l r
  | .xor => bitVals o .xor l r
  | .lsh => shiftVals o true l r
  | .rsh => shiftVals o false l r
  | .eq => cmpVals o .eq l r
  | .ne => cmpVals o .ne l r
  | .lt => cmpVals o .lt l r
  | .le => cmpVals o .le l r
  | .gt => cmpVals o .gt l r
  | .ge => cmpVals o .ge l r
  | .andand => andandVals o l r
  | .oror => ororVals o l r

/-- `evaluateNot`, `evaluateMinus`, `evaluateTwid`, `evaluatePreInc`, `evaluatePreDec`
(evaluate.go 1120-1141, 1625-1704). -/
def unVals (o : Opts) (op : Uop) (v : Val) : CM Val :=
  match op, v with
  | .paren, v => pure v
  | .plus, v => pure v
  | .not, .const n _ => pure (.const (b2n (n == 0)) none)
  | .not, v => unRun o v fun r => .jmpImm .ne r 0 2 :: reg2bool r
  | .minus, .const n _ => pure (.const (-n) none)
  | .minus, v => unRun o v fun r => [.neg r]
  | .twid, .const n _ => pure (.const (~~~n) none)
  | .twid, v => do
    checkCalc o v
    unRun o v fun r => [.aluImm .xor r (-1)]
  | .preinc, .const n _ => pure (.const (n + 1) none)
  | .preinc, v => unRun o v fun r => [.aluImm .add r 1]
  | .predec, .const n _ => pure (.const (n - 1) none)
  | .predec, v => unRun o v fun r => [.aluImm .sub r 1]

/-- One arm of the conditional operator (evaluate.go 1757-1766, 1774-1783). -/
def condArm (o : Opts) (rc : Nat) (v : Val) : CM Unit :=
  match v with
  | .const n _ => emit [.movImm rc n]
  | v => do
    let (r, _, _) ← materialize o v
    emit [.movReg rc r]
    freeM r

/-- `evaluateCond` after its three operands have been evaluated (evaluate.go 1727-1789). -/
def condVals (o : Opts) (c l r : Val) : CM Val := do
  checkCalc o c
  checkCalc o l
  checkCalc o r
  match c with
  | .const n _ => pure (if n ≠ 0 then l else r)
  | c => do
    let (rc, tc, _) ← materialize o c
    let (_, cl) ← capture (condArm o rc l)
    let (_, cr) ← capture (condArm o rc r)
    emit (.jmpImm .eq rc 0 (cl.length + 1) :: cl ++ .ja cr.length :: cr)
    pure (.mat rc tc none)

/-- `evaluate` (evaluate.go 19-135) and the functions it dispatches to. -/
def evaluate (o : Opts) : Expr → CM Val
  | .name s => pure (evaluateName o s)
  | .num text =>
    match parseNumber text with
    | none => reject
    | some n => pure (.const n none)
  | .arrow e f => do
    let b ← evaluate o e
    accessMember o b f true
  | .dot e f => do
    let b ← evaluate o e
    accessMember o b f false
  | .index e i => do
    let b ← evaluate o e
    evaluateIndex o b i
  | .indir e => do
    let b ← evaluate o e
    evaluateIndir o b
  | .addr e => do
    let b ← evaluate o e
    evaluateAddr b
  | .cast t (.num text) =>
    match parseUnsigned text, t with
    | some _, some t => castLit t text
    | _, _ => reject
  | .cast t e => do
    let v ← evaluate o e
    match t with
    | none => reject
    | some t => pure (castVal t v)
  | .un op e => do
    let v ← evaluate o e
    unVals o op v
  | .bin op l r => do
    let a ← evaluate o l
    let b ← evaluate o r
    binVals o op a b
  | .cond c l r => do
    let vc ← evaluate o c
    let vl ← evaluate o l
    let vr ← evaluate o r
    condVals o vc vl vr
  | .unsup => reject

/-- `supportedOps` of `compile` (expr.go 67-80). -/
def topOp : Expr → Bool
  | .bin .andand _ _ | .bin .oror _ _ => true
  | .bin .eq _ _ | .bin .ne _ _ | .bin .lt _ _ | .bin .le _ _ | .bin .gt _ _ | .bin .ge _ _ => true
  | .un .not _ => true
  | _ => false

/-- No register in use. -/
def noRegs : Regs := fun _ => false

/-- The state of the compiler after `c.regalloc.registers[asm.R9] = true` (expr.go 53). -/
def initFilter : CSt := { used := setReg noRegs 9 true, exitUsed := false }

/-- `CompileFilterExpr` and `compile` (expr.go 46-105). The exit label is on the last instruction emitted by
`evaluate`, which has position `body.length` in the program because of the leading move. -/
def compileFilter (o : Opts) (e : Expr) : Except Err Prog :=
  if !topOp e then .error .reject
  else
    match evaluate o e initFilter with
    | .error x => .error x
    | .ok (.const _ _, _, _) => .error .reject
    | .ok (v, _, body) =>
      let r := match v with | .mat r _ _ => r | _ => 0
      .ok { code := .movReg 9 1 :: body ++ (if r ≠ 0 then [.movReg 0 r] else []) ++ [.ret],
            label := body.length }

/-- What `CompileEvalExpr` (expr.go 140-214) hands to its caller: instructions, result register, type,
member, `LabelUsed`. -/
structure EvalRes where
  code : List Insn
  reg : Nat
  ty : Option Ty
  mem : Option Member
  labelUsed : Bool

/-- `for _, reg := range opts.UsedRegisters { MarkUsed(reg) }`. -/
def markAll (u : Regs) : List Nat → Option Regs
  | [] => some u
  | r :: rs =>
    match markUsed u r with
    | none => none
    | some u' => markAll u' rs

/-- `CompileEvalExpr` (expr.go 140-214) for the expression that is left after output functions have been
unwrapped; `force` is `MemoryReadFlagForce`. A constant is returned with register R0 and no code. -/
def compileEval (o : Opts) (usedRegs : List Nat) (force : Bool) (e : Expr) : Except Err EvalRes :=
  match markAll noRegs usedRegs with
  | none => .error .panic
  | some u =>
    match evaluate o e { used := u, exitUsed := false } with
    | .error x => .error x
    | .ok (.const _ t, s, body) =>
      if force then .ok ⟨body, 0, t, none, s.exitUsed⟩ else .error .reject
    | .ok (v, s, body) =>
      match materialize o v s with
      | .error x => .error x
      | .ok ((r, t, m), s', c) => .ok ⟨body ++ c, r, t, m, s'.exitUsed⟩

end Bpfsnoop.Cc
