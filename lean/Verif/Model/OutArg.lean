import Verif.Model.FnArgs
import Verif.Model.CcFunc

/-
Model of internal/bpfsnoop/output_arg.go (code generation for `--output-arg` expressions) and of
internal/bpfsnoop/bpfsnoop_arg.go (their decoder). Go's `int` is a 64-bit two's complement number.
-/
namespace Bpfsnoop.Arg
open Cc

/-- What output_arg.go asks about the type of an expression: `btf.Sizeof` (`none` is an error),
`btfx.IsNumberPointer`, `mybtf.IsConstCharPtr`, `mybtf.IsCharArray`, `arr.Nelems` (output_arg.go 213-215,
263-271). -/
structure TyQ where
  size : Option Ty → Option (BitVec 64)
  numPtr : Option Ty → Bool
  charPtr : Option Ty → Bool
  charArr : Option Ty → Bool
  nelems : Option Ty → BitVec 64

/-- `funcArgumentOutput` (output_arg.go 33-60). `insn` is given by its instructions and the position of the
instruction that carries the symbol `labelExit`, if any; that the labels of different expressions
differ (`genExitLabel`, output_arg.go 343-347) is C52, `Lbl.labels_right_partial`. -/
structure OArg where
  typ : FTyp
  code : List OI
  label : Option Nat
  size : BitVec 64
  trueSize : BitVec 64
  isNumPtr : Bool
  isStr : Bool
  /-- `btf.Sizeof(arg.t)` -/
  tsize : BitVec 64
  addr : String
  port : String
  int : String
deriving DecidableEq, Repr

/-- `if res.Reg != asm.R3 { Mov.Reg(R3, res.Reg) }`. -/
def toR3 (r : Nat) : List OI := if r ≠ 3 then [.cc (.movReg 3 r)] else []

/-- The arguments of the helper call (output_arg.go 118-131, 158-172, 222-236): size, buffer, offset. -/
def helperArgs (offset size : BitVec 64) : List OI :=
  [.cc (.movImm 2 size), .cc (.movReg 1 8)] ++ (if offset ≠ 0 then [.cc (.aluImm .add 1 offset)] else [])

/-- `genDerefInsns` (output_arg.go 105-134): the instructions; the size is the one of the type. -/
def genDeref (reg : Nat) (offset size : BitVec 64) : List OI :=
  [.cc (.jexit reg)] ++ toR3 reg ++ helperArgs offset size ++ [.cc .callProbe]

/-- `genBufInsns` (output_arg.go 136-175). -/
def genBuf (reg : Nat) (isString : Bool) (offset off size : BitVec 64) : List OI :=
  [.cc (.jexit reg)] ++ (if off ≠ 0 then [.cc (.aluImm .add reg off)] else []) ++ toR3 reg ++
    helperArgs offset size ++ [if isString then .probeStr else .cc .callProbe]

/-- The number branch of `genDefaultInsns` (output_arg.go 182-208). -/
def genNum (reg : Nat) (isNumPtr : Bool) (offset : BitVec 64) : List OI :=
  .stx 8 offset reg 8 ::
    if isNumPtr then
      toR3 reg ++ [.cc (.jmpImm .eq 3 0 5), .cc (.movImm 2 8), .cc (.movReg 1 8), .cc (.aluImm .add 1 (offset + 8)),
        .cc .callProbe, .cc (.ja 1), .stx 8 (offset + 8) 3 8]
    else []

/-- The string branch of `genDefaultInsns` (output_arg.go 209-238). -/
def genArgStr (reg : Nat) (isArr : Bool) (offset size : BitVec 64) : List OI :=
  (if isArr then [] else [.cc (.jexit reg)]) ++ toR3 reg ++ helperArgs offset size ++ [.probeStr]

/-- The end of `compile` (output_arg.go 314-331): the exception byte at `offset`. -/
def genTail (labelUsed : Bool) (offset : BitVec 64) : List OI :=
  if labelUsed then [.cc (.movImm 0 0), .cc (.ja 1), .cc (.movImm 0 1), .stx 8 offset 0 1]
  else [.cc (.movImm 0 0), .stx 8 offset 0 1]

/-- Instructions after the expression, data size and `LabelUsed` of one expression (output_arg.go 276-312). -/
structure OGen where
  code : List OI
  used : BitVec 64
  label : Bool

/-- The switch of `compile` (output_arg.go 276-309) and what it calls. -/
def genValue (q : TyQ) (r : TopRes) (offset size : BitVec 64) : Except Err OGen :=
  match r.typ with
  | .deref => .ok ⟨genDeref r.code.reg offset size, size, true⟩
  | .buf | .str | .pkt | .addr | .port | .slice | .hex | .int =>
    .ok ⟨genBuf r.code.reg (decide (r.typ = .str)) offset r.res.off r.res.size, r.res.size, true⟩
  | .dflt | .hist | .tdigest =>
    if q.charPtr r.res.ty || q.charArr r.res.ty then
      let n := if q.charArr r.res.ty then q.nelems r.res.ty else BitVec.ofNat 64 maxOutputStrLen
      .ok ⟨genArgStr r.code.reg (q.charArr r.res.ty) offset n, n, r.code.labelUsed || !q.charArr r.res.ty⟩
    else if size = 0 ∨ (8 : BitVec 64).slt size ∨ (∃ m, r.res.mem = some m ∧ 64 < m.bfSize) then .error .reject
    else
      .ok ⟨genNum r.code.reg (q.numPtr r.res.ty) offset, if q.numPtr r.res.ty then 16 else 8, r.code.labelUsed⟩

/-- `compile` (output_arg.go 244-331) after `cc.CompileEvalExpr`: the new offset and the compiled expression. -/
def compileArg (q : TyQ) (r : TopRes) (offset : BitVec 64) : Except Err (BitVec 64 × OArg) :=
  match q.size r.res.ty with
  | none => .error .reject
  | some size =>
    match genValue q r offset size with
    | .error z => .error z
    | .ok g =>
      let body := r.code.code.map .cc ++ g.code
      .ok (offset + g.used + 1,
        { typ := r.typ, code := body ++ genTail g.label (offset + g.used),
          label := if g.label then some (body.length + 2) else none,
          size := g.used + 1, trueSize := g.used, isNumPtr := q.numPtr r.res.ty,
          isStr := q.charPtr r.res.ty || q.charArr r.res.ty, tsize := size,
          addr := r.addr, port := r.port, int := r.int })

/-- `matchParams` (output_arg.go 349-370) for the expressions that mention a parameter of the function. -/
def compileArgs (q : TyQ) : List TopRes → BitVec 64 → Except Err (BitVec 64 × List OArg)
  | [], offset => .ok (offset, [])
  | r :: rs, offset =>
    match compileArg q r offset with
    | .error z => .error z
    | .ok (offset', a) =>
      match compileArgs q rs offset' with
      | .error z => .error z
      | .ok (total, as) => .ok (total, a :: as)

/-- Run the code of one expression: a jump to its exit label continues at the labelled instruction; without
the label the program cannot be loaded. -/
def runArg (m : Mem) (a : OArg) (s : OSt) : OOut :=
  match execO m a.code s with
  | .exit s' =>
    match a.label with
    | none => .stuck
    | some k => execO m (a.code.drop k) s'
  | x => x

/-- Run the code of all expressions, one after the other. -/
def runBlocks (m : Mem) : List OArg → OSt → OOut
  | [], s => .done s
  | a :: as, s =>
    match runArg m a s with
    | .done s' => runBlocks m as s'
    | x => x

/-- `genInsns` (output_arg.go 372-393), executed: `output_arg(__u64 *args, void *buff)`. -/
def runOutputArg (m : Mem) (as : List OArg) (s : OSt) : OOut :=
  match execO m [.cc (.movReg 9 1), .cc (.movReg 8 2)] s with
  | .done s1 =>
    match runBlocks m as s1 with
    | .done s2 => execO m [.cc .ret] s2
    | x => x
  | x => x

/-! ### The decoder -/

/-- What is printed for one expression: the text `[NULL]`, bytes (dumped, as addresses, ports, integers, packet),
a string, elements of a slice, a number with the pointed-to number; or a sample for a histogram or t-digest. -/
inductive Item
  | null
  | bytes (b : List (BitVec 8))
  | str (s : List (BitVec 8))
  | elems (l : List (List (BitVec 8)))
  | num (v : BitVec 64)
  | numPtr (v w : BitVec 64)
  | sample (b : List (BitVec 8)) (size : BitVec 64)
deriving DecidableEq, Repr

/-- `data[:n]` for a Go `int`; `none` is a panic. -/
def sliceTo (data : List (BitVec 8)) (n : BitVec 64) : Option (List (BitVec 8)) :=
  if n.msb = false ∧ n.toNat ≤ data.length then some (data.take n.toNat) else none

/-- `data[n:]`. -/
def sliceFrom (data : List (BitVec 8)) (n : BitVec 64) : Option (List (BitVec 8)) :=
  if n.msb = false ∧ n.toNat ≤ data.length then some (data.drop n.toNat) else none

/-- `data[n]`. -/
def index (data : List (BitVec 8)) (n : BitVec 64) : Option (BitVec 8) :=
  if n.msb = false then data[n.toNat]? else none

/-- `data[i*size:(i+1)*size]` for `i` from 0 to `cnt - 1` (bpfsnoop_arg.go 149-161). -/
def chunks (data : List (BitVec 8)) (size : Nat) : Nat → Option (List (List (BitVec 8)))
  | 0 => some []
  | n + 1 => if size ≤ data.length then (chunks (data.drop size) size n).map (data.take size :: ·) else none

/-- One successful value with its text formed in the switch (bpfsnoop_arg.go 71-228): the bytes it is formed
from. `none` is a panic. -/
def showBytes (a : OArg) (data : List (BitVec 8)) : Option Item :=
  match a.typ with
  | .deref | .buf | .pkt | .hex => (sliceTo data a.trueSize).map .bytes
  | .str => (sliceTo data a.trueSize).map fun b => .str (nulTerm b)
  | .addr => ((addrFns.lookup a.addr).bind (sliceTo data)).map .bytes
  | .port => ((addrFns.lookup a.port).bind (sliceTo data)).map .bytes
  | .int => ((intFns.lookup a.int).bind (sliceTo data)).map .bytes
  | .slice =>
    if a.tsize = 0 then none
    else (chunks data a.tsize.toNat (a.trueSize.sdiv a.tsize).toNat).map .elems
  | .hist | .tdigest | .dflt => none

/-- Values printed by `btfx.ReprExprType` (bpfsnoop_arg.go 252-271): item and remaining data. -/
def showDefault (a : OArg) (data : List (BitVec 8)) : Option (Item × List (BitVec 8)) :=
  if a.isStr then
    match sliceTo data a.trueSize, sliceFrom data a.trueSize with
    | some s, some rest => some (.str (nulTerm s), rest)
    | _, _ => none
  else
    match getU64 data with
    | none => none
    | some v =>
      if a.isNumPtr then
        match getU64 (data.drop 8) with
        | none => none
        | some w => some (.numPtr v w, (data.drop 8).drop 8)
      else some (.num v, data.drop 8)

/-- One iteration of `__outputFuncArgAttrs` (bpfsnoop_arg.go 41-274): item and remaining data. A histogram or
t-digest sample `continue`s without advancing `data`. -/
def decodeArg (a : OArg) (data : List (BitVec 8)) : Option (Item × List (BitVec 8)) :=
  match index data (a.size - 1) with
  | none => none
  | some ex =>
    if ex ≠ 0 then (sliceFrom data a.size).map fun rest => (.null, rest)
    else
      match a.typ with
      | .hist | .tdigest => (sliceTo data a.trueSize).map fun b => (.sample b a.tsize, data)
      | .dflt =>
        match showDefault a data with
        | none => none
        | some (i, rest) => if rest.isEmpty then none else some (i, rest.drop 1)
      | _ =>
        match showBytes a data, sliceFrom data a.size with
        | some i, some rest => some (i, rest)
        | _, _ => none

/-- `__outputFuncArgAttrs` (bpfsnoop_arg.go 41-274). -/
def decodeArgs : List OArg → List (BitVec 8) → Option (List Item)
  | [], _ => some []
  | a :: as, data =>
    match decodeArg a data with
    | none => none
    | some (i, rest) => (decodeArgs as rest).map (i :: ·)

end Bpfsnoop.Arg
