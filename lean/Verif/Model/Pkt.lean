import Verif.Model.Attach
import Verif.Model.ArgMach

/-
Packet tuples: capture in BPF (bpf/bpfsnoop_pkt_output.h, bpf/bpfsnoop_pkt.h) and printing
(internal/bpfsnoop/bpfsnoop_pkt.go).

Fields of `struct iphdr`, `udphdr`, `tcphdr`, `ethhdr` and `vlan_hdr` are at the offsets of the protocols; those of
`sk_buff`, `xdp_buff` and `xdp_frame` depend on the kernel (CO-RE) and are parameters. `bpf_probe_read_kernel` gives
zeros where memory cannot be read.
-/
namespace Bpfsnoop.Pkt
open Cc (Mem)

abbrev Byte := BitVec 8

/-- `struct bpfsnoop_pkt_data` (bpfsnoop_pkt_output.h 21-27) and `PktData` (bpfsnoop_pkt.go 21-27), field by field. -/
structure PktData where
  addrs : List Byte
  ports : List Byte
  proto : Byte
  tcpFl : Byte
  pad : List Byte
deriving DecidableEq, Repr

/-- In memory (bpfsnoop_pkt_output.h 21-27). -/
def PktData.bytes (p : PktData) : List Byte := p.addrs ++ p.ports ++ [p.proto, p.tcpFl] ++ p.pad

/-- `(*PktData)(unsafe.Pointer(&data[0]))` (bpfsnoop_pkt.go 92). -/
def PktData.ofBytes (b : List Byte) : PktData where
  addrs := b.take 8
  ports := (b.drop 8).take 4
  proto := b[12]?.getD 0
  tcpFl := b[13]?.getD 0
  pad := (b.drop 14).take 2

/-- One byte. -/
def read8 (m : Mem) (a : BitVec 64) : Byte := (Arg.probeBytes m 1 a).headD 0

/-- A 16-bit field in network byte order, as the number it stands for. The C code compares it with `bpf_htons(..)`,
which is the same. -/
def readBE16 (m : Mem) (a : BitVec 64) : Nat :=
  match Arg.probeBytes m 2 a with
  | [x, y] => x.toNat * 256 + y.toNat
  | _ => 0

/-- `output_tuple` (bpfsnoop_pkt_output.h 30-64): `pkt` is what the memory held before. -/
def outputTuple (m : Mem) (iph : BitVec 64) (pkt : PktData) : PktData :=
  let b := read8 m iph
  if (b >>> 4) &&& 7 ≠ 4 then pkt
  else
    let l4 := iph + (((b &&& 7).setWidth 64) <<< 2)
    match (read8 m (iph + 9)).toNat with
    | 6 => { pkt with addrs := Arg.probeBytes m 8 (iph + 12), ports := Arg.probeBytes m 4 l4, proto := 6
                      tcpFl := read8 m (l4 + 14 - 1) }
    | 17 => { pkt with addrs := Arg.probeBytes m 8 (iph + 12), ports := Arg.probeBytes m 4 l4, proto := 17 }
    | 1 => { pkt with addrs := Arg.probeBytes m 8 (iph + 12), proto := 1 }
    | _ => pkt

/-- `is_ip_vxlan_pkt` (bpfsnoop_pkt.h 22-35). -/
def isIpVxlan (m : Mem) (ip : BitVec 64) : Bool :=
  if read8 m (ip + 9) ≠ 17 then false
  else readBE16 m (ip + (((read8 m ip &&& 15).setWidth 64) <<< 2) + 2) == 4789

/-- `is_vxlan_pkt` (bpfsnoop_pkt.h 38-46). -/
def isVxlan (m : Mem) (eth : BitVec 64) : Bool :=
  if readBE16 m (eth + 12) ≠ 0x0800 then false else isIpVxlan m (eth + 14)

/-- `__skip_tunnel` (bpfsnoop_pkt.h 49-61); `skip` is `SKIP_TUNNEL`. -/
def skipTunnel (skip : Bool) (m : Mem) (data : BitVec 64) (iphdr : Bool) : BitVec 64 :=
  if !skip then data
  else if iphdr && isIpVxlan m data then data + 50
  else if !iphdr && isVxlan m data then data + 50
  else data

/-- `output_skb` (bpfsnoop_pkt_output.h 67-79). -/
def outputSkb (skip : Bool) (headOff nhOff : BitVec 64) (m : Mem) (skb : BitVec 64) (pkt : PktData) : PktData :=
  let head := BitVec.ofNat 64 (Arg.leVal (Arg.probeBytes m 8 (skb + headOff)))
  let nh := BitVec.ofNat 64 (Arg.leVal (Arg.probeBytes m 2 (skb + nhOff)))
  outputTuple m (skipTunnel skip m (head + nh) true) pkt

/-- `output_xdp_data` (bpfsnoop_pkt_output.h 82-107). -/
def outputXdpData (m : Mem) (eth : BitVec 64) (pkt : PktData) : PktData :=
  match readBE16 m (eth + 12) with
  | 0x0800 => outputTuple m (eth + 14) pkt
  | 0x8100 => if readBE16 m (eth + 14 + 2) ≠ 0x0800 then pkt else outputTuple m (eth + 14 + 4) pkt
  | _ => pkt

/-- `output_xdp_buff` and `output_xdp_frame` (bpfsnoop_pkt_output.h 109-133), which differ in the offset of `data`
only. -/
def outputXdp (skip : Bool) (dataOff : BitVec 64) (m : Mem) (xdp : BitVec 64) (pkt : PktData) : PktData :=
  let data := BitVec.ofNat 64 (Arg.leVal (Arg.probeBytes m 8 (xdp + dataOff)))
  outputXdpData m (skipTunnel skip m data false) pkt

/-- `netip.AddrFrom4(..).String()` as used by `saddr` and `daddr` (bpfsnoop_pkt.go 33-39). -/
def addr4 (b : List Byte) : String := ".".intercalate (b.map fun x => toString x.toNat)

/-- `be.Uint16` (bpfsnoop_pkt.go 41-47). -/
def be16 (b : List Byte) : Nat := b.foldl (fun a x => a * 256 + x.toNat) 0

/-- `tcpFlags` (bpfsnoop_pkt.go 49-69). -/
def tcpFlags (f : Byte) : String :=
  "|".intercalate
    ((["FIN", "SYN", "RST", "PSH", "ACK", "URG", "ECE", "CWR"].zipIdx.filter fun p => f &&& (1#8 <<< p.2) != 0).map (·.1))

/-- `repr` (bpfsnoop_pkt.go 71-89). -/
def repr (p : PktData) : String :=
  let s := addr4 (p.addrs.take 4)
  let d := addr4 (p.addrs.drop 4)
  let sp := toString (be16 (p.ports.take 2))
  let dp := toString (be16 (p.ports.drop 2))
  match p.proto.toNat with
  | 6 => s ++ ":" ++ sp ++ " -> " ++ d ++ ":" ++ dp ++ " (TCP:" ++ tcpFlags p.tcpFl ++ ")"
  | 17 => s ++ ":" ++ sp ++ " -> " ++ d ++ ":" ++ dp ++ " (UDP)"
  | 1 => s ++ " -> " ++ d ++ " (ICMP)"
  | _ => "..UNK.."

/-- `outputPktTuple` (bpfsnoop_pkt.go 91-103) without colours: what is printed for the 16 bytes of an event. -/
def outputPktTuple (data : List Byte) : String :=
  let p := PktData.ofBytes data
  if p.addrs = List.replicate 8 0 then "" else "Pkt tuple: " ++ repr p ++ "\n"

end Bpfsnoop.Pkt
