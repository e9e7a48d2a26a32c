import Verif.Model.Asm

/-
`--filter-pkt` put into a program, with its errors: `injectPktFilter` (internal/bpfsnoop/bpf_tracing.go 227-286), `packetFilter.filterSkb` (internal/bpfsnoop/filter_pkt.go 40-81) and
`injectFilterXdp` (internal/bpfsnoop/filter_pkt.go 83-112). The library elibpcap, which compiles pcap expressions, is a parameter.
`Asm.injectPktFilter` is the same for expressions the library accepts.
-/
namespace Bpfsnoop.Pin
open Flg (Str)
open Asm (Prog Param PKind)

/-- `elibpcap.Inject(expr, insns, Options{AtBpf2Bpf: stub})`: the instructions returned and whether there was no error. Go assigns both
(filter_pkt.go 46, 54, 61, 89). -/
abbrev Lib := Str → Str → Prog → Prog × Bool

/-- filter_pkt.go 61 -/
def rejectAll : Str := "__reject_all__".toList

/-- `filterSkb` (filter_pkt.go 40-81): the program and whether there was no error. An error at the stub for packets without link-layer header
is not one: that stub then rejects. -/
def filterSkb (lib : Lib) (expr : Str) (index : Nat) (p : Prog) : Prog × Bool :=
  if expr = [] then (p, true)
  else
    let r2 := lib expr Asm.sL2 p
    if !r2.2 then (r2.1, false)
    else
      let r3 := lib expr Asm.sL3 r2.1
      let p3 := if r3.2 then r3.1 else (lib rejectAll Asm.sL3 r3.1).1
      (Asm.inject ([Asm.sL2s, Asm.sL3s, Asm.sFXdp, Asm.sFXdpF].foldl (Asm.clear true) p3) Asm.sFPkt (Asm.callStub index Asm.sFSkb), true)

/-- `injectFilterXdp` (filter_pkt.go 83-112). -/
def filterXdp (lib : Lib) (expr : Str) (index : Nat) (stub other : Str) (p : Prog) : Prog × Bool :=
  if expr = [] then (p, true)
  else
    let r2 := lib expr Asm.sL2 p
    if !r2.2 then (r2.1, false)
    else
      (Asm.inject ([Asm.sL2s, Asm.sL3s, Asm.sFSkb, other, Asm.sL3].foldl (Asm.clear true) r2.1) Asm.sFPkt (Asm.callStub index stub), true)

/-- The switch of `injectPktFilter` (bpf_tracing.go 245-277) for a parameter that points to this struct: `none` is `continue`. `known` says whether
the kernel has a struct of that name (`btfx.GetStructBtfPointer`, btfx/types.go 104-116). For `__sk_buff` and `xdp_md` the error of the injection is
assigned to a variable of the case (`typ, err :=`, bpf_tracing.go 250, 261), not to the one tested in line 275. -/
def pktCase (lib : Lib) (known : Str → Bool) (expr : Str) (s : Str) (index : Nat) (p : Prog) : Option (Prog × Bool) :=
  if s = "sk_buff".toList then some (filterSkb lib expr index p)
  else if s = "__sk_buff".toList then
    if known "sk_buff".toList then some ((filterSkb lib expr index p).1, true) else some (p, false)
  else if s = "xdp_buff".toList then some (filterXdp lib expr index Asm.sFXdp Asm.sFXdpF p)
  else if s = "xdp_md".toList then
    if known "xdp_buff".toList then some ((filterXdp lib expr index Asm.sFXdp Asm.sFXdpF p).1, true) else some (p, false)
  else if s = "xdp_frame".toList then some (filterXdp lib expr index Asm.sFXdpF Asm.sFXdp p)
  else none

/-- The loop (bpf_tracing.go 232-283) from index `i` on. -/
def pktLoop (lib : Lib) (known : Str → Bool) (expr : Str) (p : Prog) : List Param → Nat → Prog × Bool
  | [], _ => (Asm.clearPktFilter p, true)
  | q :: qs, i =>
    match q.target with
    | none => pktLoop lib known expr p qs (i + 1)
    | some s =>
      match pktCase lib known expr s i p with
      | some r => r
      | none => pktLoop lib known expr p qs (i + 1)

/-- `injectPktFilter` (bpf_tracing.go 227-286): the program and whether there was no error. -/
def injectPktFilter (lib : Lib) (known : Str → Bool) (expr : Str) (params : List Param) (p : Prog) : Prog × Bool :=
  if expr = [] then (p, true) else pktLoop lib known expr p params 0

end Bpfsnoop.Pin
