/-
Small utility functions of bpfsnoop, modelled one by one.
-/
namespace Bpfsnoop.Util

/-- Go `int`/`int64` wrap-around: the representative of `x` in `[-2^63, 2^63)`. -/
def wrap64 (x : Int) : Int := Int.bmod x (2 ^ 64)

/-- `math.MaxInt` on 64-bit platforms. -/
def maxInt : Int := 2 ^ 63 - 1

/-- internal/mathx/math.go 13-16: the loop `for n < v { n <<= 1 }` on a Go `int`.
`fuel` counts iterations; `none` means the loop has not ended after that many iterations. -/
def maskLoop : Nat → Int → Int → Option Int
  | 0, n, v => if n < v then none else some n
  | fuel + 1, n, v => if n < v then maskLoop fuel (wrap64 (2 * n)) v else some n

/-- internal/mathx/math.go 8-18 `Mask`. `fuel` bounds the iterations of the loop. -/
def mask (fuel : Nat) (v : Int) : Option Int :=
  if v = maxInt then some maxInt
  else (maskLoop fuel 1 v).map (fun n => n - 1)

/-- internal/strx/string.go 8-16 `NullTerminated`: scan to the first zero byte. The index loop over the
slice is written as structural recursion on the list of bytes. -/
def scanIdx : List UInt8 → Nat
  | [] => 0
  | b :: bs => if b ≠ 0 then scanIdx bs + 1 else 0

/-- internal/strx/string.go 8-16. -/
def nullTerminated (b : List UInt8) : List UInt8 :=
  if scanIdx b = 0 then [] else b.take (scanIdx b)

/-- Outcome of `io.ReaderAt.ReadAt`. -/
inductive ReadErr | none | eof | negative
  deriving DecidableEq, Repr

/-- internal/bpfsnoop/bytes.go 17-32 `bufferReaderAt.ReadAt`. The destination slice `p` is given and
the updated destination is returned with `n` and the error. `copy` copies `min` bytes. -/
def readAt (data p : List UInt8) (off : Int) : List UInt8 × Nat × ReadErr :=
  if off < 0 then (p, 0, .negative)
  else if off ≥ (data.length : Int) then (p, 0, .eof)
  else
    let src := data.drop off.toNat
    let n := min p.length src.length
    let p' := src.take n ++ p.drop n
    (p', n, if n < p.length then .eof else .none)

/-- internal/bpfsnoop/bpf_endbr.go 19-23 `genEndbrPoison`. -/
def genEndbrPoison : BitVec 32 := 0x001f0f66#32

/-- internal/bpfsnoop/bpf_endbr.go 25-35 `isEndbrInsn`. -/
def isEndbrInsn (val : BitVec 32) : Bool :=
  if val = genEndbrPoison then true
  else (val &&& ~~~0x01000000#32) == 0xfa1e0ff3#32

/-- Little-endian `binary.NativeEndian.Uint32` (x86-64 and arm64 are little endian). -/
def leU32 (b0 b1 b2 b3 : UInt8) : BitVec 32 :=
  BitVec.ofNat 32 (b0.toNat + b1.toNat * 2 ^ 8 + b2.toNat * 2 ^ 16 + b3.toNat * 2 ^ 24)

/-- internal/bpfsnoop/bpf_endbr.go 37-50 `haveEndbrInsn`, once the JITed bytes have been obtained
(the `prog.Info()` failure and the missing-JIT case are the `none` argument). -/
def haveEndbrInsn (jited : Option (List UInt8)) : Bool :=
  match jited with
  | none => false
  | some (b0 :: b1 :: b2 :: b3 :: _) => isEndbrInsn (leU32 b0 b1 b2 b3)
  | some _ => false

/-- internal/bpfsnoop/func_graph_parser.go 100-104 `getCalleeIP` on amd64 (`insnCallqSize = 5`).
In Go `+` and `|` have different precedence: `kaddr + 5 + off | mask` is `(kaddr + 5 + off) | mask`. -/
def getCalleeIP (kaddr : BitVec 64) (offset : BitVec 32) : BitVec 64 :=
  (kaddr + 5#64 + offset.zeroExtend 64) ||| 0xFFFFFFFF00000000#64

/-- internal/bpfsnoop/func_graph_parser.go 117-129 `getCalleeIPFromInsn`, amd64 branch:
0 means "not a direct call". -/
def getCalleeIPFromInsn (addr : BitVec 64) (bytes : List UInt8) : BitVec 64 :=
  match bytes with
  | [op, b0, b1, b2, b3] => if op = 0xe8 then getCalleeIP addr (leU32 b0 b1 b2 b3) else 0#64
  | _ => 0#64

end Bpfsnoop.Util
