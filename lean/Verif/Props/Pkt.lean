import Verif.Model.Pkt
import Verif.Props.ArgMach

/-!
C39. Packet tuples: addresses, ports, protocol and TCP flags printed for a packet are those in its headers.
-/
namespace Bpfsnoop.Pkt
open Cc (Mem)

/-! ### Specification: packets by construction (RFC 791, 768, 793, IEEE 802.1Q, RFC 7348) -/

/-- A number in network byte order. -/
def net16 (v : BitVec 16) : List Byte := [(v >>> 8).setWidth 8, v.setWidth 8]

/-- The part of a packet behind the IP header. -/
inductive L4
  /-- ports, sequence and acknowledgement numbers, data offset, flags, the rest -/
  | tcp (sport dport : BitVec 16) (numbers : Fin 8 → Byte) (offset flags : Byte) (rest : List Byte)
  | udp (sport dport : BitVec 16) (rest : List Byte)
  | icmp (rest : List Byte)

def L4.proto : L4 → Byte
  | .tcp .. => 6
  | .udp .. => 17
  | .icmp .. => 1

def L4.bytes : L4 → List Byte
  | .tcp sp dp n off fl rest =>
    net16 sp ++ net16 dp ++ [n 0, n 1, n 2, n 3, n 4, n 5, n 6, n 7] ++ [off, fl] ++ rest
  | .udp sp dp rest => net16 sp ++ net16 dp ++ rest
  | .icmp rest => rest

/-- An IPv4 packet: type of service to time to live, checksum, addresses, options, the rest. -/
structure Ip where
  fields : Fin 8 → Byte
  ck : Fin 2 → Byte
  src : Fin 4 → Byte
  dst : Fin 4 → Byte
  opts : List (Fin 4 → Byte)
  l4 : L4

/-- Options come in words of four bytes; the length of the header is counted in such words. -/
def Ip.bytes (p : Ip) : List Byte :=
  [BitVec.ofNat 8 (4 * 16 + (5 + p.opts.length)), p.fields 0, p.fields 1, p.fields 2, p.fields 3, p.fields 4, p.fields 5,
    p.fields 6, p.fields 7, p.l4.proto, p.ck 0, p.ck 1, p.src 0, p.src 1, p.src 2, p.src 3, p.dst 0, p.dst 1, p.dst 2,
    p.dst 3] ++ p.opts.flatMap (fun w => [w 0, w 1, w 2, w 3]) ++ p.l4.bytes

/-- How an address is written. -/
def dotted (a : Fin 4 → Byte) : String :=
  toString (a 0).toNat ++ "." ++ toString (a 1).toNat ++ "." ++ toString (a 2).toNat ++ "." ++ toString (a 3).toNat

/-- The names of the TCP flags that are set. -/
def flagNames (f : Byte) : List String :=
  (if f.getLsbD 0 then ["FIN"] else []) ++ (if f.getLsbD 1 then ["SYN"] else []) ++ (if f.getLsbD 2 then ["RST"] else []) ++
  (if f.getLsbD 3 then ["PSH"] else []) ++ (if f.getLsbD 4 then ["ACK"] else []) ++ (if f.getLsbD 5 then ["URG"] else []) ++
  (if f.getLsbD 6 then ["ECE"] else []) ++ (if f.getLsbD 7 then ["CWR"] else [])

/-- What the user should see for a packet. -/
def tuple (p : Ip) : String :=
  match p.l4 with
  | .tcp sp dp _ _ fl _ => dotted p.src ++ ":" ++ toString sp.toNat ++ " -> " ++ dotted p.dst ++ ":" ++ toString dp.toNat ++
      " (TCP:" ++ "|".intercalate (flagNames fl) ++ ")"
  | .udp sp dp _ => dotted p.src ++ ":" ++ toString sp.toNat ++ " -> " ++ dotted p.dst ++ ":" ++ toString dp.toNat ++ " (UDP)"
  | .icmp _ => dotted p.src ++ " -> " ++ dotted p.dst ++ " (ICMP)"

/-- The line for a packet; nothing is printed if both addresses are 0.0.0.0. -/
def line (p : Ip) : String :=
  if (∀ i, p.src i = 0) ∧ (∀ i, p.dst i = 0) then "" else "Pkt tuple: " ++ tuple p ++ "\n"

/-- Memory holds these bytes at an address. -/
def Holds (m : Mem) (a : BitVec 64) (bs : List Byte) : Prop :=
  ∀ i, i < bs.length → m (a + BitVec.ofNat 64 i) = bs[i]?

/-! ### Reads -/

theorem Holds.drop {m : Mem} {a : BitVec 64} {bs : List Byte} (h : Holds m a bs) (k : Nat) (hk : k ≤ bs.length) :
    Holds m (a + BitVec.ofNat 64 k) (bs.drop k) := by
  intro i hi
  rw [List.length_drop] at hi
  have := h (k + i) (by omega)
  rw [List.getElem?_drop, ← this]
  congr 1
  rw [BitVec.add_assoc, ← BitVec.ofNat_add]

theorem Holds.left {m : Mem} {a : BitVec 64} {bs cs : List Byte} (h : Holds m a (bs ++ cs)) : Holds m a bs := by
  intro i hi
  rw [h i (by rw [List.length_append]; omega), List.getElem?_append_left hi]

theorem Holds.right {m : Mem} {a : BitVec 64} {bs cs : List Byte} (h : Holds m a (bs ++ cs)) :
    Holds m (a + BitVec.ofNat 64 bs.length) cs := by
  have := h.drop bs.length (by simp)
  rwa [List.drop_left] at this

theorem readN_holds {m : Mem} (bs : List Byte) : ∀ {a : BitVec 64}, Holds m a bs → Arg.readN m bs.length a = some bs := by
  induction bs with
  | nil => intro a _; rfl
  | cons b bs ih =>
    intro a h
    have h0 := h 0 (by simp)
    simp only [BitVec.ofNat_eq_ofNat, BitVec.add_zero, List.getElem?_cons_zero] at h0
    have h1 : Holds m (a + 1) bs := by
      have := h.drop 1 (by simp)
      simpa using this
    simp only [List.length_cons, Arg.readN]
    rw [h0]
    simp only []
    rw [ih h1]
    rfl

theorem read_holds {m : Mem} {a : BitVec 64} {bs : List Byte} (n : Nat) (hn : n = bs.length) (h : Holds m a bs) :
    Arg.probeBytes m n a = bs := by
  subst hn
  rw [Arg.probeBytes, readN_holds bs h]
  rfl

/-- A read inside known bytes. -/
theorem read_mid {m : Mem} {a : BitVec 64} {bs : List Byte} (h : Holds m a bs) (off n : Nat) (hn : off + n ≤ bs.length) :
    Arg.probeBytes m n (a + BitVec.ofNat 64 off) = (bs.drop off).take n := by
  refine read_holds n (by rw [List.length_take, List.length_drop]; omega) ?_
  have := h.drop off (by omega)
  rw [← List.take_append_drop n (bs.drop off)] at this
  exact this.left

theorem read8_holds {m : Mem} {a : BitVec 64} {bs : List Byte} {b : Byte} (h : Holds m a (b :: bs)) : read8 m a = b := by
  unfold read8
  rw [read_holds (bs := [b]) 1 rfl (by exact Holds.left (bs := [b]) (cs := bs) h)]
  rfl

theorem readBE16_holds {m : Mem} {a : BitVec 64} {bs : List Byte} {v : BitVec 16} (h : Holds m a (net16 v ++ bs)) :
    readBE16 m a = v.toNat := by
  unfold readBE16
  rw [read_holds 2 rfl h.left]
  simp only [net16]
  have := v.isLt
  simp only [BitVec.toNat_setWidth, BitVec.toNat_ushiftRight]
  omega

/-! ### The header -/

theorem ip_split (p : Ip) (m : Mem) (a : BitVec 64) (h : Holds m a p.bytes) :
    read8 m a = BitVec.ofNat 8 (69 + p.opts.length) ∧ read8 m (a + 9) = p.l4.proto ∧
    Arg.probeBytes m 8 (a + 12) = [p.src 0, p.src 1, p.src 2, p.src 3, p.dst 0, p.dst 1, p.dst 2, p.dst 3] ∧
    Holds m (a + BitVec.ofNat 64 (4 * (5 + p.opts.length))) p.l4.bytes := by
  have hl : (p.opts.flatMap (fun w => [w 0, w 1, w 2, w 3])).length = 4 * p.opts.length := by
    induction p.opts with
    | nil => rfl
    | cons w ws ih => simp only [List.flatMap_cons, List.length_append, List.length_cons, List.length_nil, ih]; omega
  refine ⟨?_, ?_, ?_, ?_⟩
  · have := read8_holds h
    rw [this]
    congr 1
    omega
  · have := read_mid h 9 1 (by simp [Ip.bytes])
    unfold read8
    rw [show (9 : BitVec 64) = BitVec.ofNat 64 9 from rfl, this]
    rfl
  · have := read_mid h 12 8 (by simp [Ip.bytes])
    rw [show (12 : BitVec 64) = BitVec.ofNat 64 12 from rfl, this]
    rfl
  · have := h.right
    rw [List.length_append, hl] at this
    rw [show 4 * (5 + p.opts.length) = 20 + 4 * p.opts.length from by omega]
    exact this

theorem l4_ports (sp dp : BitVec 16) : be16 ((net16 sp ++ net16 dp).take 2) = sp.toNat ∧ be16 ((net16 sp ++ net16 dp).drop 2) = dp.toNat := by
  have := sp.isLt
  have := dp.isLt
  refine ⟨?_, ?_⟩ <;> simp only [net16, List.take, List.drop, List.cons_append, List.nil_append, be16, List.foldl,
    BitVec.toNat_setWidth, BitVec.toNat_ushiftRight] <;> omega

theorem tcpFlags_names (f : Byte) : tcpFlags f = "|".intercalate (flagNames f) := by
  unfold tcpFlags flagNames
  congr 1
  revert f
  decide +kernel

theorem addr4_dotted (a : Fin 4 → Byte) : addr4 [a 0, a 1, a 2, a 3] = dotted a := by
  simp only [addr4, List.map, String.intercalate, dotted]
  rfl

/-- The captured data of a packet. -/
def capture (p : Ip) (old : PktData) : PktData :=
  let a := [p.src 0, p.src 1, p.src 2, p.src 3, p.dst 0, p.dst 1, p.dst 2, p.dst 3]
  match p.l4 with
  | .tcp sp dp _ _ fl _ => ⟨a, net16 sp ++ net16 dp, 6, fl, old.pad⟩
  | .udp sp dp _ => ⟨a, net16 sp ++ net16 dp, 17, old.tcpFl, old.pad⟩
  | .icmp _ => ⟨a, old.ports, 1, old.tcpFl, old.pad⟩

theorem ihl_bits (n : Nat) (h : n ≤ 10) :
    (BitVec.ofNat 8 (69 + n) >>> 4) &&& 7 = 4 ∧
    (n ≤ 2 → ((BitVec.ofNat 8 (69 + n) &&& 7).setWidth 64) <<< 2 = BitVec.ofNat 64 (4 * (5 + n))) ∧
    ((BitVec.ofNat 8 (69 + n) &&& 15).setWidth 64) <<< 2 = BitVec.ofNat 64 (4 * (5 + n)) := by
  match n, h with
  | 0, _ | 1, _ | 2, _ | 3, _ | 4, _ | 5, _ | 6, _ | 7, _ | 8, _ | 9, _ | 10, _ => decide

theorem outputTuple_ip (p : Ip) (hn : p.opts.length ≤ 2) (m : Mem) (a : BitVec 64) (h : Holds m a p.bytes) (old : PktData) :
    outputTuple m a old = capture p old := by
  obtain ⟨h1, h2, h3, h4⟩ := ip_split p m a h
  obtain ⟨e1, e2, _⟩ := ihl_bits p.opts.length (by omega)
  unfold outputTuple capture
  simp only [h1, h2, h3]
  rw [if_neg (by rw [e1]; simp), e2 hn]
  generalize hl : a + BitVec.ofNat 64 (4 * (5 + p.opts.length)) = l at h4
  cases hp : p.l4 with
  | tcp sp dp n off fl rest =>
    rw [hp] at h4
    have hports : Arg.probeBytes m 4 l = net16 sp ++ net16 dp := by
      refine read_holds 4 rfl ?_
      unfold L4.bytes at h4
      exact h4.left.left.left
    have hfl : read8 m (l + 14 - 1) = fl := by
      have := read_mid h4 13 1 (by simp [L4.bytes, net16])
      unfold read8
      rw [show l + 14 - 1 = l + BitVec.ofNat 64 13 from by
        rw [BitVec.sub_eq_add_neg, BitVec.add_assoc]; rfl, this]
      rfl
    simp only [L4.proto, hl]
    rw [hports, hfl]
    rfl
  | udp sp dp rest =>
    rw [hp] at h4
    have hports : Arg.probeBytes m 4 l = net16 sp ++ net16 dp := by
      refine read_holds 4 rfl ?_
      unfold L4.bytes at h4
      exact h4.left
    simp only [L4.proto, hl]
    rw [hports]
    rfl
  | icmp rest => rfl

theorem ofBytes_bytes (p : PktData) (h1 : p.addrs.length = 8) (h2 : p.ports.length = 4) (h3 : p.pad.length = 2) :
    PktData.ofBytes p.bytes = p := by
  obtain ⟨a, po, pr, fl, pad⟩ := p
  simp only at h1 h2 h3
  match a, h1 with
  | [a0, a1, a2, a3, a4, a5, a6, a7], _ =>
    match po, h2 with
    | [p0, p1, p2, p3], _ =>
      match pad, h3 with
      | [x, y], _ => rfl

theorem capture_shown (p : Ip) (old : PktData) (ho : old.ports.length = 4) (hp : old.pad.length = 2) :
    outputPktTuple (capture p old).bytes = line p := by
  have e : PktData.ofBytes (capture p old).bytes = capture p old := by
    refine ofBytes_bytes _ ?_ ?_ ?_ <;> unfold capture <;> cases p.l4 <;> simp [ho, hp, net16]
  unfold outputPktTuple
  simp only [e]
  have ha : (capture p old).addrs = [p.src 0, p.src 1, p.src 2, p.src 3, p.dst 0, p.dst 1, p.dst 2, p.dst 3] := by
    unfold capture; cases p.l4 <;> rfl
  have hz : (capture p old).addrs = List.replicate 8 0 ↔ (∀ i, p.src i = 0) ∧ (∀ i, p.dst i = 0) := by
    rw [ha]
    constructor
    · intro h
      simp only [List.replicate, List.cons.injEq] at h
      refine ⟨fun i => ?_, fun i => ?_⟩
      · match i with
        | 0 => exact h.1
        | 1 => exact h.2.1
        | 2 => exact h.2.2.1
        | 3 => exact h.2.2.2.1
      · match i with
        | 0 => exact h.2.2.2.2.1
        | 1 => exact h.2.2.2.2.2.1
        | 2 => exact h.2.2.2.2.2.2.1
        | 3 => exact h.2.2.2.2.2.2.2.1
    · rintro ⟨h1, h2⟩
      simp [h1, h2]
  unfold line
  by_cases hh : (∀ i, p.src i = 0) ∧ (∀ i, p.dst i = 0)
  · rw [if_pos (hz.2 hh), if_pos hh]
  · rw [if_neg (fun h => hh (hz.1 h)), if_neg hh]
    congr 2
    unfold repr tuple
    simp only [ha, List.take, List.drop, addr4_dotted]
    unfold capture
    cases p.l4 with
    | tcp sp dp n off fl rest =>
      obtain ⟨e1, e2⟩ := l4_ports sp dp
      simp only [e1, e2, tcpFlags_names]
      rfl
    | udp sp dp rest =>
      obtain ⟨e1, e2⟩ := l4_ports sp dp
      simp only [e1, e2]
      rfl
    | icmp rest => rfl

/-! ### C39 -/

/-- The port of VXLAN. -/
def vxlanPort : BitVec 16 := 4789

/-- Is the packet a VXLAN tunnel? -/
def Ip.vxlan (p : Ip) : Prop := ∃ sp rest, p.l4 = .udp sp vxlanPort rest

theorem isIpVxlan_ip (p : Ip) (hn : p.opts.length ≤ 10) (m : Mem) (a : BitVec 64) (h : Holds m a p.bytes) :
    isIpVxlan m a = true ↔ p.vxlan := by
  obtain ⟨h1, h2, _, h4⟩ := ip_split p m a h
  obtain ⟨_, _, e3⟩ := ihl_bits p.opts.length hn
  unfold isIpVxlan Ip.vxlan
  rw [h2, h1, e3]
  cases hp : p.l4 with
  | tcp => simp [L4.proto]
  | icmp => simp [L4.proto]
  | udp sp dp rest =>
    rw [hp] at h4
    have hd : readBE16 m (a + BitVec.ofNat 64 (4 * (5 + p.opts.length)) + 2) = dp.toNat := by
      have : Holds m (a + BitVec.ofNat 64 (4 * (5 + p.opts.length)) + 2) (net16 dp ++ rest) := by
        simp only [L4.bytes, List.append_assoc] at h4
        exact h4.right
      exact readBE16_holds this
    rw [hd]
    simp only [L4.proto, ne_eq, not_true_eq_false, if_false, beq_iff_eq, L4.udp.injEq]
    constructor
    · intro h
      refine ⟨sp, rest, rfl, ?_, rfl⟩
      apply BitVec.eq_of_toNat_eq
      rw [h]; rfl
    · rintro ⟨_, _, _, h, _⟩
      rw [h]; rfl

/-- **C39, socket buffers** (partial). For every `sk_buff` whose network header is an IPv4 packet with TCP, UDP or
ICMP in it and at most two words of options, and which is not a tunnel to be skipped, the line printed shows the
addresses, ports, protocol and flags of that packet. Nothing depends on the old contents of the event.
Missing: longer headers (`options_violated`), other packets (`stale_violated`), fragments (`fragment_violated`). -/
theorem skb_tuple_partial (p : Ip) (hn : p.opts.length ≤ 2) (skip : Bool) (ht : skip = true → ¬ p.vxlan)
    (m : Mem) (headOff nhOff skb head : BitVec 64) (nh : BitVec 16) (old : PktData)
    (h1 : Holds m (skb + headOff) (Arg.le 8 head)) (h2 : Holds m (skb + nhOff) (Arg.le 2 (nh.setWidth 64)))
    (h3 : Holds m (head + nh.setWidth 64) p.bytes) (ho : old.ports.length = 4) (hp : old.pad.length = 2) :
    outputPktTuple (outputSkb skip headOff nhOff m skb old).bytes = line p := by
  rw [← capture_shown p old ho hp]
  congr 2
  rw [← outputTuple_ip p hn m _ h3 old]
  unfold outputSkb
  rw [read_holds 8 (Arg.le_length _ _).symm h1, read_holds 2 (Arg.le_length _ _).symm h2, Arg.leVal_le, Arg.leVal_le]
  have e1 : BitVec.ofNat 64 (head.toNat % 2 ^ (8 * 8)) = head := by
    apply BitVec.eq_of_toNat_eq
    have := head.isLt
    simp
    omega
  have e2 : BitVec.ofNat 64 ((nh.setWidth 64).toNat % 2 ^ (8 * 2)) = nh.setWidth 64 := by
    apply BitVec.eq_of_toNat_eq
    have := nh.isLt
    simp
    omega
  simp only [e1, e2]
  congr 1
  unfold skipTunnel
  cases skip with
  | false => rfl
  | true =>
    have : isIpVxlan m (head + nh.setWidth 64) = false := by
      rw [Bool.eq_false_iff]
      exact fun h => ht rfl ((isIpVxlan_ip p (by omega) m _ h3).1 h)
    simp [this]

/-- The headers of a VXLAN tunnel between the UDP ports and the inner packet: UDP length and checksum, VXLAN header. -/
def vxlanHdr (x : Fin 12 → Byte) : List Byte :=
  [x 0, x 1, x 2, x 3, x 4, x 5, x 6, x 7, x 8, x 9, x 10, x 11]

/-- Two Ethernet addresses. -/
def macs (x : Fin 12 → Byte) : List Byte :=
  [x 0, x 1, x 2, x 3, x 4, x 5, x 6, x 7, x 8, x 9, x 10, x 11]

/-- An Ethernet frame with an IPv4 packet, with or without a VLAN tag. -/
structure Frame where
  macs : Fin 12 → Byte
  tag : Option (BitVec 16)
  ip : Ip

def Frame.bytes (f : Frame) : List Byte :=
  Pkt.macs f.macs ++ (match f.tag with
    | none => net16 0x0800
    | some t => net16 0x8100 ++ net16 t ++ net16 0x0800) ++ f.ip.bytes

/-- The outer packet of a VXLAN tunnel carries the inner frame. -/
def Carries (p : Ip) (f : Frame) : Prop := ∃ sp x, p.l4 = .udp sp vxlanPort (vxlanHdr x ++ f.bytes)

theorem inner_holds (p : Ip) (f : Frame) (hc : Carries p f) (hn : p.opts = []) (m : Mem) (a : BitVec 64) (h : Holds m a p.bytes) :
    Holds m (a + 36) f.bytes := by
  obtain ⟨_, _, _, h4⟩ := ip_split p m a h
  obtain ⟨sp, x, hx⟩ := hc
  rw [hx, hn] at h4
  simp only [L4.bytes] at h4
  rw [← List.append_assoc] at h4
  have := h4.right
  simp only [List.length_append, net16, vxlanHdr, List.length_cons, List.length_nil] at this
  rw [show a + 36 = a + BitVec.ofNat 64 (4 * (5 + [].length (α := Fin 4 → Byte))) + BitVec.ofNat 64 (0 + 1 + 1 + (0 + 1 + 1) + (0 + 1 + 1 + 1 + 1 + 1 + 1 + 1 + 1 + 1 + 1 + 1 + 1)) from by
    rw [BitVec.add_assoc]; rfl]
  exact this

/-- **C39, tunnels in socket buffers** (partial): with `--skip-tunnel`, for a VXLAN packet whose outer header has no
options and whose inner frame is not tagged, the line shows the inner packet. Missing: `tunnel_options_violated`. -/
theorem skb_tunnel_partial (p : Ip) (hn : p.opts = []) (f : Frame) (hc : Carries p f) (htag : f.tag = none)
    (hi : f.ip.opts.length ≤ 2)
    (m : Mem) (headOff nhOff skb head : BitVec 64) (nh : BitVec 16) (old : PktData)
    (h1 : Holds m (skb + headOff) (Arg.le 8 head)) (h2 : Holds m (skb + nhOff) (Arg.le 2 (nh.setWidth 64)))
    (h3 : Holds m (head + nh.setWidth 64) p.bytes) (ho : old.ports.length = 4) (hp : old.pad.length = 2) :
    outputPktTuple (outputSkb true headOff nhOff m skb old).bytes = line f.ip := by
  rw [← capture_shown f.ip old ho hp]
  congr 2
  have hin := inner_holds p f hc hn m _ h3
  have hip : Holds m (head + nh.setWidth 64 + 50) f.ip.bytes := by
    simp only [Frame.bytes, htag] at hin
    have := hin.right
    simp only [List.length_append, net16, macs, List.length_cons, List.length_nil] at this
    rw [BitVec.add_assoc] at this
    exact this
  rw [← outputTuple_ip f.ip hi m _ hip old]
  unfold outputSkb
  rw [read_holds 8 (Arg.le_length _ _).symm h1, read_holds 2 (Arg.le_length _ _).symm h2, Arg.leVal_le, Arg.leVal_le]
  have e1 : BitVec.ofNat 64 (head.toNat % 2 ^ (8 * 8)) = head := by
    apply BitVec.eq_of_toNat_eq
    have := head.isLt
    simp
    omega
  have e2 : BitVec.ofNat 64 ((nh.setWidth 64).toNat % 2 ^ (8 * 2)) = nh.setWidth 64 := by
    apply BitVec.eq_of_toNat_eq
    have := nh.isLt
    simp
    omega
  simp only [e1, e2]
  congr 1
  unfold skipTunnel
  have hv : p.vxlan := by
    obtain ⟨sp, x, hx⟩ := hc
    exact ⟨sp, _, hx⟩
  have : isIpVxlan m (head + nh.setWidth 64) = true := (isIpVxlan_ip p (by simp [hn]) m _ h3).2 hv
  simp [this]

theorem frame_split (f : Frame) (m : Mem) (a : BitVec 64) (h : Holds m a f.bytes) :
    match f.tag with
    | none => readBE16 m (a + 12) = 0x0800 ∧ Holds m (a + 14) f.ip.bytes
    | some _ => readBE16 m (a + 12) = 0x8100 ∧ readBE16 m (a + 14 + 2) = 0x0800 ∧ Holds m (a + 14 + 4) f.ip.bytes := by
  cases ht : f.tag with
  | none =>
    simp only [Frame.bytes, ht, List.append_assoc] at h
    have h1 := h.right
    simp only [macs, List.length_cons, List.length_nil] at h1
    refine ⟨readBE16_holds h1, ?_⟩
    have h2 := h1.right
    simp only [net16, List.length_cons, List.length_nil] at h2
    rw [BitVec.add_assoc] at h2
    exact h2
  | some t =>
    simp only [Frame.bytes, ht, List.append_assoc] at h
    have h1 := h.right
    simp only [macs, List.length_cons, List.length_nil] at h1
    have h2 := h1.right.right
    refine ⟨readBE16_holds h1, ?_, ?_⟩
    · have := readBE16_holds h2
      simp only [net16, List.length_cons, List.length_nil] at this
      rw [BitVec.add_assoc, BitVec.add_assoc] at this
      rw [BitVec.add_assoc]
      exact this
    · have h3 := h2.right
      simp only [net16, List.length_cons, List.length_nil] at h3
      rw [BitVec.add_assoc, BitVec.add_assoc, BitVec.add_assoc] at h3
      rw [BitVec.add_assoc]
      exact h3

theorem xdpData_frame (f : Frame) (hn : f.ip.opts.length ≤ 2) (m : Mem) (a : BitVec 64) (h : Holds m a f.bytes) (old : PktData) :
    outputXdpData m a old = capture f.ip old := by
  have := frame_split f m a h
  unfold outputXdpData
  cases ht : f.tag with
  | none =>
    simp only [ht] at this
    rw [this.1]
    exact outputTuple_ip _ hn m _ this.2 old
  | some t =>
    simp only [ht] at this
    rw [this.1]
    simp only []
    rw [if_neg (by rw [this.2.1]; simp)]
    exact outputTuple_ip _ hn m _ this.2.2 old

/-- **C39, XDP** (partial). For every `xdp_buff` or `xdp_frame` whose data is an Ethernet frame, tagged or not, with an
IPv4 packet as above, the line shows that packet; with `--skip-tunnel` and an untagged VXLAN frame whose outer header
has no options, it shows the inner packet, tagged or not. Missing: the cases of the violations, and tagged tunnels,
which are not skipped. -/
theorem xdp_tuple_partial (f : Frame) (skip : Bool) (m : Mem) (dataOff xdp data : BitVec 64) (old : PktData)
    (h1 : Holds m (xdp + dataOff) (Arg.le 8 data)) (h2 : Holds m data f.bytes)
    (ho : old.ports.length = 4) (hp : old.pad.length = 2) :
    (f.ip.opts.length ≤ 2 → (skip = true → ¬ f.ip.vxlan) →
      outputPktTuple (outputXdp skip dataOff m xdp old).bytes = line f.ip) ∧
    (∀ g, Carries f.ip g → f.ip.opts = [] → f.tag = none → g.ip.opts.length ≤ 2 → skip = true →
      outputPktTuple (outputXdp skip dataOff m xdp old).bytes = line g.ip) := by
  have hs := frame_split f m data h2
  have e1 : BitVec.ofNat 64 (Arg.leVal (Arg.probeBytes m 8 (xdp + dataOff))) = data := by
    rw [read_holds 8 (Arg.le_length _ _).symm h1, Arg.leVal_le]
    apply BitVec.eq_of_toNat_eq
    have := data.isLt
    simp
    omega
  unfold outputXdp
  simp only [e1]
  refine ⟨?_, ?_⟩
  · intro hn ht
    rw [← capture_shown f.ip old ho hp, ← xdpData_frame f hn m _ h2 old]
    congr 3
    unfold skipTunnel
    cases skip with
    | false => rfl
    | true =>
      have : isVxlan m data = false := by
        unfold isVxlan
        cases htag : f.tag with
        | none =>
          simp only [htag] at hs
          rw [if_neg (by rw [hs.1]; simp), Bool.eq_false_iff]
          exact fun h => ht rfl ((isIpVxlan_ip f.ip (by omega) m _ hs.2).1 h)
        | some t =>
          simp only [htag] at hs
          rw [if_pos (by rw [hs.1]; simp)]
      simp [this]
  · intro g hg hn htag hgn hsk
    subst hsk
    simp only [htag] at hs
    have hv : isVxlan m data = true := by
      unfold isVxlan
      rw [if_neg (by rw [hs.1]; simp)]
      obtain ⟨sp, x, hx⟩ := hg
      exact (isIpVxlan_ip f.ip (by simp [hn]) m _ hs.2).2 ⟨sp, _, hx⟩
    have hsk : skipTunnel true m data false = data + 50 := by simp [skipTunnel, hv]
    rw [hsk, ← capture_shown g.ip old ho hp]
    congr 2
    refine xdpData_frame g hgn m _ ?_ old
    have := inner_holds f.ip g hg hn m _ hs.2
    rw [BitVec.add_assoc] at this
    exact this

/-! ### Witness and violations -/

/-- Memory with the given bytes at an address and nothing else readable. -/
def memAt (a : BitVec 64) (bs : List Byte) : Mem := fun x => bs[(x - a).toNat]?

theorem memAt_holds (a : BitVec 64) (bs : List Byte) (h : bs.length < 2 ^ 64) : Holds (memAt a bs) a bs := by
  intro i hi
  unfold memAt
  congr 1
  rw [BitVec.add_comm, BitVec.add_sub_cancel, BitVec.toNat_ofNat]
  omega

/-- Two areas. -/
def memOr (m m' : Mem) : Mem := fun x => (m x).or (m' x)

/-- A packet from 10.0.0.1:443 to 10.0.0.2:51000 with the given options and TCP flags. -/
def sample (opts : List (Fin 4 → Byte)) : Ip :=
  ⟨fun _ => 0, fun _ => 0, (fun i => [10, 0, 0, 1][i]), (fun i => [10, 0, 0, 2][i]), opts, .tcp 443 51000 (fun _ => 9) 0x50 0x12 [0, 0, 0, 0, 0, 0]⟩

/-- A kernel memory with an `sk_buff` (`head` at offset 0, `network_header` at offset 8) for the given packet. -/
def skbMem (bs : List Byte) : Mem := memOr (memAt 0x1000 (Arg.le 8 0x2000 ++ Arg.le 2 64)) (memAt 0x2040 bs)

/-- An unwritten packet area. -/
def zeroPkt : PktData := ⟨List.replicate 8 0, List.replicate 4 0, 0, 0, [0, 0]⟩

/-- Witness: the line for a packet with one word of options; and for the same packet inside a VXLAN tunnel. -/
theorem tuple_witness :
    outputPktTuple (outputSkb false 0 8 (skbMem (sample [fun _ => 1]).bytes) 0x1000 zeroPkt).bytes =
      "Pkt tuple: 10.0.0.1:443 -> 10.0.0.2:51000 (TCP:SYN|ACK)\n" ∧
    line (sample [fun _ => 1]) = "Pkt tuple: 10.0.0.1:443 -> 10.0.0.2:51000 (TCP:SYN|ACK)\n" ∧
    (let f : Frame := ⟨fun _ => 7, none, sample []⟩
     let outer : Ip := ⟨fun _ => 0, fun _ => 0, fun _ => 1, fun _ => 2, [], .udp 99 vxlanPort (vxlanHdr (fun _ => 0) ++ f.bytes)⟩
     outputPktTuple (outputSkb true 0 8 (skbMem outer.bytes) 0x1000 zeroPkt).bytes = line (sample [])) := by
  decide +kernel

/-- **C39 violated: IP headers of 32 bytes and more.** The length is masked to three bits, so the ports (and TCP
flags) are taken from the wrong place: here from the start of the IP header itself. -/
theorem options_violated : ∃ p : Ip, p.opts.length = 3 ∧
    outputPktTuple (outputSkb false 0 8 (skbMem p.bytes) 0x1000 zeroPkt).bytes =
      "Pkt tuple: 10.0.0.1:18432 -> 10.0.0.2:0 (TCP:)\n" ∧
    line p = "Pkt tuple: 10.0.0.1:443 -> 10.0.0.2:51000 (TCP:SYN|ACK)\n" := by
  refine ⟨sample [fun _ => 1, fun _ => 1, fun _ => 1], rfl, ?_⟩
  decide +kernel

/-- **C39 violated: packets that are not IPv4 with TCP, UDP or ICMP.** Nothing is written, so the line printed is made
of whatever the ring buffer held there before: for an IPv6 packet, for instance, the tuple of an earlier event. -/
theorem stale_violated (m : Mem) (iph : BitVec 64) (old : PktData)
    (h : (read8 m iph) >>> 4 = 6 ∨ ((read8 m iph) >>> 4 = 4 ∧ read8 m (iph + 9) ≠ 6 ∧ read8 m (iph + 9) ≠ 17 ∧ read8 m (iph + 9) ≠ 1)) :
    outputPktTuple (outputTuple m iph old).bytes = outputPktTuple old.bytes := by
  have : outputTuple m iph old = old := by
    unfold outputTuple
    simp only []
    rcases h with h | ⟨h, h6, h17, h1⟩
    · rw [h]; rfl
    · rw [h, if_neg (by decide)]
      split
      · rename_i e; exact absurd (BitVec.eq_of_toNat_eq e) h6
      · rename_i e; exact absurd (BitVec.eq_of_toNat_eq e) h17
      · rename_i e; exact absurd (BitVec.eq_of_toNat_eq e) h1
      · rfl
  rw [this]

/-- The old contents can be any tuple. -/
example : read8 (memAt 0 [0x60]) 0 >>> 4 = 6 ∧
    outputPktTuple (capture (sample []) zeroPkt).bytes = "Pkt tuple: 10.0.0.1:443 -> 10.0.0.2:51000 (TCP:SYN|ACK)\n" := by
  decide +kernel

/-- **C39 violated: versions other than 4.** Bytes that say version 12 are shown as an IPv4 packet. -/
theorem version_violated : ∃ bs : List Byte, bs.head? = some 0xC5 ∧
    outputPktTuple (outputSkb false 0 8 (skbMem bs) 0x1000 zeroPkt).bytes =
      "Pkt tuple: 10.0.0.1:443 -> 10.0.0.2:51000 (TCP:SYN|ACK)\n" := by
  refine ⟨0xC5 :: (sample []).bytes.tail, rfl, ?_⟩
  decide +kernel

/-- **C39 violated: fragments.** A later fragment (offset 8 here) has no ports; bytes of its payload (here `GET `) are
shown as ports. -/
theorem fragment_violated :
    let hdr : List Byte := [0x45, 0, 0, 44, 0, 1, 0, 1, 64, 17, 0, 0, 10, 0, 0, 1, 10, 0, 0, 2]
    outputPktTuple (outputSkb false 0 8 (skbMem (hdr ++ [0x47, 0x45, 0x54, 0x20])) 0x1000 zeroPkt).bytes =
      "Pkt tuple: 10.0.0.1:18245 -> 10.0.0.2:21536 (UDP)\n" := by
  decide +kernel

/-- **C39 violated: tunnels with options.** With `--skip-tunnel`, options in the outer header make bpfsnoop miss the
inner packet: it shows neither the inner nor the outer packet. -/
theorem tunnel_options_violated : ∃ (p : Ip) (f : Frame), p.opts.length = 1 ∧ Carries p f ∧
    outputPktTuple (outputSkb true 0 8 (skbMem p.bytes) 0x1000 zeroPkt).bytes ≠ line f.ip ∧
    outputPktTuple (outputSkb true 0 8 (skbMem p.bytes) 0x1000 zeroPkt).bytes ≠ line p := by
  let f : Frame := ⟨fun _ => 7, none, ⟨fun _ => 0, fun _ => 0, fun _ => 1, fun _ => 2, [], .udp 1 2 []⟩⟩
  refine ⟨⟨fun _ => 0, fun _ => 0, fun _ => 1, fun _ => 2, [fun _ => 1], .udp 99 vxlanPort (vxlanHdr (fun _ => 0) ++ f.bytes)⟩, f, rfl,
    ⟨_, _, rfl⟩, ?_, ?_⟩ <;> decide +kernel

end Bpfsnoop.Pkt
