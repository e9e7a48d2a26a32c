import Verif.Model.ArgMach
import Verif.Model.Util

/-
Capture and display of the arguments and the return value of a traced function:
internal/bpfsnoop/bpf_tracing_info.go 29-70, internal/bpfsnoop/func_arg.go, and
internal/bpfsnoop/bpfsnoop_func_args.go 92-284. Text rendering of a decoded value is in `Repr`.
-/
namespace Bpfsnoop.Arg
open Cc

/-- What `getFuncParams` asks about the type of a parameter: its size (`none`: `btf.Sizeof` fails),
`mybtf.IsConstCharPtr` and `btfx.IsNumberPointer`. -/
structure PTy where
  size : Option Nat
  constCharPtr : Bool
  numberPtr : Bool
deriving DecidableEq, Repr

/-- `FuncParamFlags`: `IsNumberPtr`, `IsStr`, `partOfPrevParam`. -/
structure PFlag where
  isNumPtr : Bool
  isStr : Bool
  part : Bool
deriving DecidableEq, Repr

/-- The loop of `getFuncParams` (bpf_tracing_info.go 34-63). -/
def slotsOf : Bool → List PTy → Option (List PFlag)
  | _, [] => some []
  | strUsed, p :: ps =>
    match p.size with
    | none => none
    | some n =>
      if n > 16 then none
      else if n > 8 then
        (slotsOf (strUsed || p.constCharPtr) ps).map (⟨false, false, false⟩ :: ⟨false, false, true⟩ :: ·)
      else (slotsOf (strUsed || p.constCharPtr) ps).map (⟨p.numberPtr, p.constCharPtr && !strUsed, false⟩ :: ·)

/-- `getFuncParams` (bpf_tracing_info.go 29-70). -/
def getFuncParams (ps : List PTy) (ret : PTy) : Option (List PFlag × PFlag) :=
  (slotsOf false ps).map (·, ⟨ret.numberPtr, ret.constCharPtr, false⟩)

/-- `maxOutputStrLen` (bpfsnoop_func_args.go 20). -/
def maxOutputStrLen : Nat := 64

/-- Bytes a captured value takes: the increments of `offset` in func_arg.go 39-125. -/
def slotSize (p : PFlag) : Nat :=
  if p.isStr then maxOutputStrLen else if p.isNumPtr then 16 else 8

/-- The string read of func_arg.go 64-77 and 108-123. -/
def genStr (off : Nat) : List OI :=
  if off ≠ 0 then
    [.cc (.movImm 2 (BitVec.ofNat 64 maxOutputStrLen)), .cc (.movReg 1 7), .cc (.aluImm .add 1 (BitVec.ofNat 64 off)),
     .probeStr]
  else [.cc (.movImm 2 (BitVec.ofNat 64 maxOutputStrLen)), .cc (.movReg 1 7), .probeStr]

/-- The pointee read of func_arg.go 53-59 and 98-103 into register `d`. -/
def genPointee (off d : Nat) : List OI :=
  [.cc (.movImm 2 8), .cc (.movReg 1 10), .cc (.aluImm .add 1 (-8)), .cc .callProbe, .cc (.ldStack d (-8)),
   .stx 7 (BitVec.ofNat 64 off) d 8]

/-- Body of the loop of `genOutputFuncArgs` (func_arg.go 39-80). -/
def genSlot (i off : Nat) (p : PFlag) : List OI :=
  .cc (.ldx 3 6 (BitVec.ofNat 64 (i * 8)) 8) ::
    if !p.isStr then
      .stx 7 (BitVec.ofNat 64 off) 3 8 :: if p.isNumPtr then genPointee (off + 8) 3 else []
    else genStr off

/-- The loop of `genOutputFuncArgs` (func_arg.go 39-80): code and final `offset`. -/
def genSlots : Nat → Nat → List PFlag → List OI × Nat
  | _, off, [] => ([], off)
  | i, off, p :: ps =>
    let r := genSlots (i + 1) (off + slotSize p) ps
    (genSlot i off p ++ r.1, r.2)

/-- The return value (func_arg.go 89-125). -/
def genRet (off : Nat) (p : PFlag) : List OI :=
  if !p.isStr then
    .stx 7 (BitVec.ofNat 64 off) 8 8 :: if p.isNumPtr then .cc (.movReg 3 8) :: genPointee (off + 8) 8 else []
  else .cc (.movReg 3 8) :: genStr off

/-- `genOutputFuncArgs` (func_arg.go 19-132): code and size. -/
def genOutputFuncArgs (ps : List PFlag) (ret : PFlag) (withRetval : Bool) : List OI × Nat :=
  let r := genSlots 0 0 ps
  let pre : List OI := [.cc (.movReg 6 1), .cc (.movReg 7 2), .cc (.movReg 8 3)]
  if !withRetval then (pre ++ r.1 ++ [.cc .ret], r.2)
  else (pre ++ r.1 ++ genRet r.2 ret ++ [.cc .ret], r.2 + slotSize ret)

/-- `injectOutputFuncArgs` (func_arg.go 134-148): the subprogram is emptied (it only returns) if there is
nothing to output. -/
def injectOutputFuncArgs (ps : List PFlag) (ret : PFlag) (withRetval : Bool) : List OI × Nat :=
  if ps.length = 0 ∧ withRetval = false then ([.cc .ret], 0) else genOutputFuncArgs ps ret withRetval

/-- `genOutputKmultiFnArgs` (func_arg.go 150-175), the loop from argument `i` on. -/
def kmultiSlots : Nat → Nat → List OI
  | _, 0 => []
  | off, n + 1 => .cc (.ldx 0 1 (BitVec.ofNat 64 off) 8) :: .stx 2 (BitVec.ofNat 64 off) 0 8 :: kmultiSlots (off + 8) n

/-- `genOutputKmultiFnArgs` (func_arg.go 150-175). -/
def genKmulti (n : Nat) (withRetval : Bool) : List OI × Nat :=
  if withRetval then (kmultiSlots 0 n ++ [.stx 2 (BitVec.ofNat 64 (n * 8)) 3 8, .cc .ret], n * 8 + 8)
  else (kmultiSlots 0 n ++ [.cc .ret], n * 8)

/-! ### The decoder -/

/-- Little-endian value of bytes. -/
def leVal : List (BitVec 8) → Nat
  | [] => 0
  | b :: bs => b.toNat + 256 * leVal bs

/-- `getU64` (bpfsnoop_func_args.go 130-132); `none` if fewer than 8 bytes are left (the Go code would panic or
read past the slice). -/
def getU64 (data : List (BitVec 8)) : Option (BitVec 64) :=
  if 8 ≤ data.length then some (BitVec.ofNat 64 (leVal (data.take 8))) else none

/-- internal/strx/string.go 8-16 `NullTerminated`. -/
def nulTerm (b : List (BitVec 8)) : List (BitVec 8) := b.takeWhile (· ≠ 0)

/-- The arguments of the call of `btfx.ReprFuncParam` (bpfsnoop_func_args.go 193): `params[idx]`, flags,
`arg`, `argVal`, `valNext`, `argStr`. -/
structure Shown where
  idx : Nat
  isStr : Bool
  isPtr : Bool
  arg : BitVec 64
  val : BitVec 64
  next : BitVec 64
  str : List (BitVec 8)
deriving DecidableEq, Repr

/-- One captured value (bpfsnoop_func_args.go 177-186): `arg`, `argVal`, `argStr` and the remaining data. -/
def readSlot (p : PFlag) (data : List (BitVec 8)) :
    Option (BitVec 64 × BitVec 64 × List (BitVec 8) × List (BitVec 8)) :=
  if p.isStr then
    if maxOutputStrLen ≤ data.length then some (0, 0, nulTerm (data.take maxOutputStrLen), data.drop maxOutputStrLen)
    else none
  else
    match getU64 data with
    | none => none
    | some a =>
      if p.isNumPtr then
        match getU64 (data.drop 8) with
        | none => none
        | some v => some (a, v, [], (data.drop 8).drop 8)
      else some (a, 0, [], data.drop 8)

/-- The loop of `outputFnArgs` (bpfsnoop_func_args.go 168-201): `nparams` is `len(params)`; the result is
what is shown and the data that is left. -/
def decodeSlots (nparams : Nat) : Nat → Nat → List PFlag → List (BitVec 8) → Option (List Shown × List (BitVec 8))
  | _, _, [], data => some ([], data)
  | i, idx, p :: ps, data =>
    if p.part then decodeSlots nparams (i + 1) idx ps data
    else
      match readSlot p data with
      | none => none
      | some (a, v, s, rest) =>
        match (if i + 1 < nparams then getU64 rest else some 0) with
        | none => none
        | some next =>
          match decodeSlots nparams (i + 1) (idx + 1) ps rest with
          | none => none
          | some (l, d) => some (⟨idx, p.isStr, p.isNumPtr, a, v, next, s⟩ :: l, d)

/-- Zero-padded prefix: `var b [24]byte; copy(b[:], data)` (bpfsnoop_func_args.go 108-109). -/
def padded (n : Nat) (data : List (BitVec 8)) : List (BitVec 8) :=
  data.take n ++ List.replicate (n - data.length) 0

/-- How `outputFnRetval` (bpfsnoop_func_args.go 92-118) prints: XDP and TC programs by their 32-bit action, others
by `btfx.ReprFuncReturn(.., num1, num2, s, ..)`. -/
inductive RetKind
  | action
  | typed
deriving DecidableEq, Repr

/-- What is shown for the return value: `num1`, `num2`, string, or the action. -/
inductive ShownRet
  | action (a : BitVec 32)
  | typed (isStr isPtr : Bool) (num1 num2 : BitVec 64) (s : List (BitVec 8))
deriving DecidableEq, Repr

/-- bpfsnoop_func_args.go 208-212 and 92-118 for a known prototype. -/
def decodeRet (k : RetKind) (ret : PFlag) (data : List (BitVec 8)) : Option ShownRet :=
  let s := if ret.isStr ∧ maxOutputStrLen ≤ data.length then nulTerm (data.take maxOutputStrLen) else []
  match k with
  | .action => if 4 ≤ data.length then some (.action (BitVec.ofNat 32 (leVal (data.take 4)))) else none
  | .typed =>
    let b := padded 24 data
    some (.typed ret.isStr ret.isNumPtr (BitVec.ofNat 64 (leVal (b.take 8))) (BitVec.ofNat 64 (leVal ((b.drop 8).take 8))) s)

/-- `outputFnArgs` (bpfsnoop_func_args.go 162-213). -/
def outputFnArgs (nparams : Nat) (ps : List PFlag) (k : RetKind) (ret : PFlag) (withRetval : Bool)
    (data : List (BitVec 8)) : Option (List Shown × Option ShownRet) :=
  match decodeSlots nparams 0 0 ps data with
  | none => none
  | some (l, rest) =>
    if withRetval then (decodeRet k ret rest).map fun r => (l, some r) else some (l, none)

/-- `outputFnArgsKmulti` (bpfsnoop_func_args.go 215-263), the loop: parameter `i` shows `(arg, valNext)`; `limit` is
`min(len(params), maxArgsKmulti)`. -/
def kmultiShow (maxArgs : Nat) (data : List (BitVec 8)) (i : Nat) : BitVec 64 × BitVec 64 :=
  (if i < maxArgs ∧ (i + 1) * 8 ≤ data.length then BitVec.ofNat 64 (leVal ((data.drop (i * 8)).take 8)) else 0,
   if i + 1 < maxArgs ∧ (i + 2) * 8 ≤ data.length then BitVec.ofNat 64 (leVal ((data.drop ((i + 1) * 8)).take 8)) else 0)

/-- `outputFnArgsKmulti` (bpfsnoop_func_args.go 215-263): shown values, and whether "..." follows. -/
def outputKmulti (maxArgs nparams : Nat) (data : List (BitVec 8)) : List (BitVec 64 × BitVec 64) × Bool :=
  ((List.range (min nparams maxArgs)).map (kmultiShow maxArgs data), decide (maxArgs < nparams))

/-- bpfsnoop_func.go 141-146 and `outputFnRetvalKmulti` (bpfsnoop_func_args.go 265-284): the number shown, if any. -/
def kmultiRet (maxArgs : Nat) (withRetval : Bool) (data : List (BitVec 8)) : Option (BitVec 64) :=
  if withRetval = false ∨ data.length < (maxArgs + 1) * 8 then none
  else some (BitVec.ofNat 64 (leVal ((data.drop (maxArgs * 8)).take 8)))

end Bpfsnoop.Arg
