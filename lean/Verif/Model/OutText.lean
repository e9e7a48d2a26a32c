import Verif.Model.OutArg
import Verif.Model.Repr

/-
The text printed for the expressions of `--output-arg`: the switch of `__outputFuncArgAttrs`
(internal/bpfsnoop/bpfsnoop_arg.go 41-286) with the notations of addresses, ports and integers; and the return values of XDP and TC
programs (bpfsnoop_func_args.go 23-128). Which bytes belong to which expression is Model/OutArg.

Simplifications: texts are lists of characters, a byte of a captured string being one character; colours (which only add escape
sequences around the same text) are off; the texts of external packages (`mybtf.DumpData`, `gopacket`) and of values printed by type
(Model/Repr) are parameters; integers in native order are little-endian, as on all machines the tool supports.
-/
namespace Bpfsnoop.Ot
open Rp (Text dec decI hexDec)
open Arg (OArg Item)
open Cc (FTyp)

abbrev Byte := BitVec 8

def t (x : String) : Text := x.toList

/-- Texts with a separator between them. -/
def join (sep : Text) : List Text → Text
  | [] => []
  | [x] => x
  | x :: y :: r => x ++ sep ++ join sep (y :: r)

/-- Two hexadecimal digits: `%02x`, as in `hex.EncodeToString` and `net.HardwareAddr.String` (Go, encoding/hex and net/mac.go). -/
def hex2 (b : Byte) : Text := [Nat.digitChar (b.toNat / 16), Nat.digitChar (b.toNat % 16)]

/-- The loop of `dumpOutputArgBuf` (bpfsnoop_arg.go 28-34) from element `i` on; `%#02x` is `0x` and two digits. -/
def dumpLoop : Nat → List Byte → Text
  | _, [] => []
  | i, b :: r => (if i ≠ 0 then t "," else []) ++ t "0x" ++ hex2 b ++ dumpLoop (i + 1) r

/-- `dumpOutputArgBuf` (bpfsnoop_arg.go 25-39). -/
def dumpBuf (b : List Byte) : Text := t "[" ++ dumpLoop 0 b ++ t "]"

/-- `hex.EncodeToString` (Go, encoding/hex). -/
def hexString (b : List Byte) : Text := (b.map hex2).flatten

/-- `net.HardwareAddr.String` (Go, net/mac.go). -/
def mac (b : List Byte) : Text := join (t ":") (b.map hex2)

/-- `netip.Addr.String` of four bytes (Go, net/netip/netip.go). -/
def ip4 (b : List Byte) : Text := join (t ".") (b.map fun x => dec x.toNat)

/-- The 16-bit groups of an IPv6 address, in network order. -/
def groups : List Byte → List Nat
  | hi :: lo :: r => (hi.toNat * 256 + lo.toNat) :: groups r
  | _ => []

/-- The number of zero groups from group `i` on. -/
def zrun (g : List Nat) (i : Nat) : Nat := ((g.drop i).takeWhile (· = 0)).length

/-- The first longest run of at least two zero groups (Go, net/netip/netip.go `appendTo6`): start and length; length 0 if there is
none. -/
def gap (g : List Nat) : Nat × Nat :=
  (List.range 8).foldl (fun s i => if 2 ≤ zrun g i ∧ s.2 < zrun g i then (i, zrun g i) else s) (255, 0)

/-- Groups in hexadecimal, with colons. -/
def hexGroups (g : List Nat) : Text := join (t ":") (g.map (Nat.toDigits 16))

/-- `netip.Addr.String` of 16 bytes (Go, net/netip/netip.go `appendTo6`): the longest run of zeros is left out. -/
def ip6Groups (g : List Nat) : Text :=
  if (gap g).2 = 0 then hexGroups g
  else hexGroups (g.take (gap g).1) ++ t "::" ++ hexGroups (g.drop ((gap g).1 + (gap g).2))

/-- `net.IP.To4` of 16 bytes (Go, net/ip.go): the address is an IPv4 address. -/
def mapped (b : List Byte) : Bool := b.take 10 = List.replicate 10 0 && (b.drop 10).take 2 = [0xff, 0xff]

/-- `net.IP.String` of 16 bytes (Go, net/ip.go). -/
def ip6 (b : List Byte) : Text := if mapped b then ip4 (b.drop 12) else ip6Groups (groups b)

/-- `[%s,%s]`. -/
def pair (x y : Text) : Text := t "[" ++ x ++ t "," ++ y ++ t "]"

/-- The switch on `addrType` (bpfsnoop_arg.go 103-134). -/
def addrText (name : String) (b : List Byte) : Option Text :=
  if name = "eth" then some (mac (b.take 6))
  else if name = "eth2" then some (pair (mac (b.take 6)) (mac ((b.drop 6).take 6)))
  else if name = "ip4" then some (ip4 (b.take 4))
  else if name = "ip42" then some (pair (ip4 (b.take 4)) (ip4 ((b.drop 4).take 4)))
  else if name = "ip6" then some (ip6 (b.take 16))
  else if name = "ip62" then some (pair (ip6 (b.take 16)) (ip6 ((b.drop 16).take 16)))
  else none

/-- Big-endian value: `binary.BigEndian.Uint16` and its like (Go, encoding/binary). -/
def beVal (b : List Byte) : Nat := b.foldl (fun n x => n * 256 + x.toNat) 0

/-- The switch on `portType` (bpfsnoop_arg.go 136-147). -/
def portText (name : String) (b : List Byte) : Option Text :=
  if name = "port" then some (dec (beVal (b.take 2)))
  else if name = "port2" then some (pair (dec (beVal (b.take 2))) (dec (beVal ((b.drop 2).take 2))))
  else none

/-- A number of `k` bytes as a signed one (`int8(..)`, `*(*int16)(..)`, bpfsnoop_arg.go 191-202). -/
def signedVal (k n : Nat) : Int := if n < 2 ^ (8 * k - 1) then n else n - 2 ^ (8 * k)

/-- The switch on `intType` (bpfsnoop_arg.go 178-221). -/
def intText (name : String) (b : List Byte) : Option Text :=
  if name = "u8" then some (hexDec (Arg.leVal (b.take 1)))
  else if name = "u16" then some (hexDec (Arg.leVal (b.take 2)))
  else if name = "u32" then some (hexDec (Arg.leVal (b.take 4)))
  else if name = "u64" then some (hexDec (Arg.leVal (b.take 8)))
  else if name = "s8" then some (decI (signedVal 1 (Arg.leVal (b.take 1))))
  else if name = "s16" then some (decI (signedVal 2 (Arg.leVal (b.take 2))))
  else if name = "s32" then some (decI (signedVal 4 (Arg.leVal (b.take 4))))
  else if name = "s64" then some (decI (signedVal 8 (Arg.leVal (b.take 8))))
  else if name = "be16" then some (hexDec (beVal (b.take 2)))
  else if name = "be32" then some (hexDec (beVal (b.take 4)))
  else if name = "be64" then some (hexDec (beVal (b.take 8)))
  else if name = "le16" then some (hexDec (Arg.leVal (b.take 2)))
  else if name = "le32" then some (hexDec (Arg.leVal (b.take 4)))
  else if name = "le64" then some (hexDec (Arg.leVal (b.take 8)))
  else none

/-- What is known of an expression besides Model/OutArg: its text, the text of its type (`btfx.Repr`), `mybtf.DumpData` of the type
(`none` is an error), the text of a packet (bpfsnoop_arg.go 80-101) and of a value printed by its type (`btfx.ReprExprType`, 263). -/
structure Ctx where
  expr : Text
  repr : Text
  dump : List Byte → Option Text
  pkt : List Byte → Text
  plain : Item → Text

/-- A byte of a string as a character. -/
def chr (b : Byte) : Char := Char.ofNat b.toNat

/-- `(%s)'%s'=` (bpfsnoop_arg.go 55 and below). -/
def lead (c : Ctx) : Text := t "(" ++ c.repr ++ t ")'" ++ c.expr ++ t "'="

/-- The elements of a slice (bpfsnoop_arg.go 155-165): an error of one is an error. -/
def dumps (c : Ctx) : List (List Byte) → Option (List Text)
  | [] => some []
  | x :: r =>
    match c.dump x with
    | none => none
    | some y => (dumps c r).map (y :: ·)

/-- The value after `=` by kind of output function (bpfsnoop_arg.go 71-224). -/
def valueText (c : Ctx) (a : OArg) : Item → Option Text
  | .bytes b =>
    match a.typ with
    | .deref => c.dump b
    | .buf => some (dumpBuf b)
    | .pkt => some (c.pkt b)
    | .addr => addrText a.addr b
    | .port => portText a.port b
    | .hex => some (hexString b)
    | .int => intText a.int b
    | _ => none
  | .str s => some (t "\"" ++ s.map chr ++ t "\"")
  | .elems l => (dumps c l).map fun ds => t "[" ++ join (t ",") ds ++ t "]"
  | _ => none

/-- Whether the value goes into a histogram or t-digest (bpfsnoop_arg.go 48). -/
def isAgg (a : OArg) : Bool := a.typ = .hist || a.typ = .tdigest

/-- The text of one expression (bpfsnoop_arg.go 52-271); a sample for a histogram or t-digest has none. -/
def itemText (c : Ctx) (a : OArg) (i : Item) : Option Text :=
  match i with
  | .null => some (lead c ++ t "[NULL]")
  | .sample _ _ => some []
  | _ =>
    match a.typ with
    | .dflt => some (c.plain i)
    | _ => (valueText c a i).map (lead c ++ ·)

/-- The loop of `__outputFuncArgAttrs` (bpfsnoop_arg.go 43-274); `comma` is `shouldPrintComma`. `none` is an error or a panic. -/
def attrsLoop : Bool → List (OArg × Ctx) → List Byte → Option Text
  | _, [], _ => some (t "\n")
  | comma, (a, c) :: as, data =>
    match Arg.decodeArg a data with
    | none => none
    | some (i, rest) =>
      match itemText c a i with
      | none => none
      | some s => (attrsLoop (comma || !isAgg a) as rest).map fun r => (if comma then t ", " else []) ++ s ++ r

/-- `outputFuncArgAttrs` (bpfsnoop_arg.go 276-286). -/
def attrs (as : List (OArg × Ctx)) (data : List Byte) : Option Text :=
  (attrsLoop false as data).map fun r => (if as.all fun x => isAgg x.1 then [] else t "Arg attrs: ") ++ r

/-! ### Return values of XDP and TC programs -/

/-- `xdpActions` (bpfsnoop_func_args.go 36-42). -/
def xdpActions : List Text := ["XDP_ABORTED", "XDP_DROP", "XDP_PASS", "XDP_TX", "XDP_REDIRECT"].map t

/-- `xdpAction.Action` (bpfsnoop_func_args.go 44-53) of the `int` made from 32 unsigned bits. -/
def xdpText (a : BitVec 32) : Text :=
  if a.toNat ≤ 4 then xdpActions.getD a.toNat [] else dec a.toNat

/-- `tcActions` (bpfsnoop_func_args.go 68-79). -/
def tcActions : List Text :=
  ["TC_ACT_UNSPEC", "TC_ACT_OK", "TC_ACT_RECLASSIFY", "TC_ACT_SHOT", "TC_ACT_PIPE", "TC_ACT_STOLEN", "TC_ACT_QUEUED",
   "TC_ACT_REPEAT", "TC_ACT_REDIRECT", "TC_ACT_TRAP"].map t

/-- `tcAction.Action` (bpfsnoop_func_args.go 81-90); the argument is a 64-bit `int`. -/
def tcAction (a : Int) : Text := if -1 ≤ a ∧ a ≤ 8 then tcActions.getD (a + 1).toNat [] else decI a

/-- `tcAction(u32).Action()` (bpfsnoop_func_args.go 102-104): the 32 bits are unsigned. -/
def tcText (a : BitVec 32) : Text := tcAction (a.toNat : Int)

/-- The type of the traced program (bpfsnoop_func_args.go 95, 101). -/
inductive PType
  | xdp | tc | other
deriving DecidableEq, Repr

/-- `outputFnRetval` (bpfsnoop_func_args.go 92-128): the text behind the arguments, from the data left (at least four bytes: the
captured return value). `typed` is the text of `btfx.ReprFuncReturn` (Model/Repr); the branch without a prototype (115-118) is not
reached, as `outputFnArgs` (166) has used the prototype before. -/
def retText (p : PType) (typed : Text) (data : List Byte) : Text :=
  t " retval=" ++
    match p with
    | .xdp => xdpText (BitVec.ofNat 32 (Arg.leVal (data.take 4)))
    | .tc => tcText (BitVec.ofNat 32 (Arg.leVal (data.take 4)))
    | .other => typed

end Bpfsnoop.Ot
