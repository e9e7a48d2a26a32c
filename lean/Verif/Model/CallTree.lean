import Verif.Model.Proto
import Verif.Model.Util
/-
`--show-func-graph-proto`: internal/bpfsnoop/func_graph_proto.go, on amd64.

Colours are not modelled. The disassembler with the kernel memory it reads is a parameter (`insns`), as are the tables of
symbols and programs and the detection of hookable functions (bpf_kfuncs.go 29-90, modelled in `Traceable`). `none` is a
crash: a fatal error or a panic. Errors of loading the BPF program that detects hookable functions are not modelled.
-/
namespace Bpfsnoop.Ct
open Rp (Text)
open Pt (T Ps Found s showFunc)

abbrev Addr := BitVec 64

/-- A function in BTF (`btf.Func`). -/
structure Fn where
  name : Text
  ret : T
  ps : Ps

/-- A function of a BPF program (`bpfProgs.funcs`): name, BTF function, length of its code. -/
structure Prog where
  name : Text
  fn : Fn
  size : Nat

/-- What the command works on. -/
structure Env where
  /-- `disasmKfuncAt` (bpf_disasm.go 12-26): addresses and bytes of the instructions; `none` is a (fatal) error. -/
  insns : Addr → Nat → Option (List (Addr × List UInt8))
  progs : Addr → Option Prog
  /-- `Kallsyms.a2s`. -/
  ksyms : Addr → Option Text
  /-- `guessBytes(ip, ksyms, 0)` (disasm.go 48-59). -/
  guess : Addr → Nat
  /-- BTF of the kernel and then of its modules. -/
  btfs : List (Text → Found)
  noreturn : Text → Bool
  deny : Text → Bool
  /-- `Kallsyms.n2s`: address and whether there are several. -/
  sym : Text → Option (Addr × Bool)
  /-- `detectTraceable` of one address (bpf_kfuncs.go 29-90). -/
  probe : Addr → Bool
  /-- Whether the context is done at the n-th look at it. -/
  stop : Nat → Bool

/-- `fgraphCallee` (func_graph_proto.go 27-32). -/
structure Callee where
  ip : Addr
  name : Text
  proto : Text
  bytes : Nat
deriving DecidableEq

/-- `fgraphProto` (func_graph_proto.go 34-46); `out` is what has been printed, each time with its depth, `polls` the number
of looks at the context. -/
structure St where
  traceable : Text → Option Bool
  ips : Addr → Option Text
  callees : Addr → Option (List Callee)
  out : List (Nat × Text)
  polls : Nat

/-- Outcome of `findBtfOfKfunc`. -/
inductive Btf where
  | fn (f : Fn)
  | none
  | error

/-- `findBtfOfKfunc` (func_graph_proto.go 117-146): the callback returns true also on errors, so the search ends there. -/
def findBtf (name : Text) : List (Text → Found) → Btf
  | [] => .none
  | b :: bs =>
    match b name with
    | .none => findBtf name bs
    | .one (.func n r ps) => .fn ⟨n, r, ps⟩
    | .one _ => .error
    | .many => .error

/-- Whether the last parameter stands for dots (kernel_functions.go 93-96, 101). -/
def variadic (ps : Ps) : Bool :=
  match ps.toList.getLast? with
  | some (n, .void) => n.isEmpty
  | _ => false

/-- Whether the result is a struct by value (kernel_functions.go 106). -/
def structRet (r : T) : Bool :=
  match r.under with
  | .comp false _ _ _ => true
  | _ => false

/-- `checkKfuncTraceable` (kernel_functions.go 98-122) with `allowDuped` false. -/
def checkKfunc (e : Env) (f : Fn) : Option Addr :=
  if variadic f.ps then none
  else if structRet f.ret then none
  else
    match e.sym f.name with
    | none => none
    | some (a, duped) => if duped then none else some a

/-- `detectKfuncTraceable` (func_graph_proto.go 57-90) with `fexit` true. When `findBtfOfKfunc` fails the message of the error
is made from the name of a function that is nil: a panic. -/
def detect (e : Env) (name : Text) : Option Bool :=
  if e.noreturn name then some false
  else if e.deny name then some false
  else
    match findBtf name e.btfs with
    | .error => none
    | .none => some false
    | .fn f =>
      match checkKfunc e f with
      | none => some false
      | some a => some (e.probe a)

/-- `checkTraceable` (func_graph_proto.go 92-100). -/
def check (e : Env) (st : St) (name : Text) : Option (Bool × St) :=
  match st.traceable name with
  | some b => some (b, st)
  | none =>
    match detect e name with
    | none => none
    | some b => some (b, { st with traceable := fun n => if n = name then some b else st.traceable n })

/-- `getFuncProto` (func_graph_proto.go 102-115). -/
def getProto (e : Env) (st : St) (f : Fn) : Option (Text × St) :=
  match showFunc f.name f.ret f.ps false with
  | none => none
  | some x =>
    match check e st f.name with
    | none => none
    | some (b, st) => some (x ++ s ";" ++ (if b then s " [traceable]" else []) ++ s "\n", st)

/-- The prototype of the function at `ip`, remembered (func_graph_proto.go 159-165, 182-188). -/
def protoAt (e : Env) (st : St) (ip : Addr) (f : Fn) : Option (Text × St) :=
  match st.ips ip with
  | some x => some (x, st)
  | none =>
    match getProto e st f with
    | none => none
    | some (x, st) => some (x, { st with ips := fun a => if a = ip then some x else st.ips a })

/-- `getCallee` (func_graph_proto.go 153-194). -/
def getCallee (e : Env) (st : St) (ip : Addr) : Option (Option Callee × St) :=
  match e.progs ip with
  | some p => (protoAt e st ip p.fn).map fun r => (some ⟨ip, p.name, r.1, p.size⟩, r.2)
  | none =>
    match e.ksyms ip with
    | none => some (none, st)
    | some n =>
      match findBtf n e.btfs with
      | .fn f => (protoAt e st ip f).map fun r => (some ⟨ip, n, r.1, e.guess ip⟩, r.2)
      | _ => some (some ⟨ip, n, n ++ s "\n", e.guess ip⟩, st)

/-- The loop over the instructions (func_graph_proto.go 213-223). -/
def collect (e : Env) (st : St) : List (Addr × List UInt8) → Option (List Callee × St)
  | [] => some ([], st)
  | i :: is =>
    if Util.getCalleeIPFromInsn i.1 i.2 = 0#64 then collect e st is
    else
      match getCallee e st (Util.getCalleeIPFromInsn i.1 i.2) with
      | none => none
      | some (c, st) =>
        match collect e st is with
        | none => none
        | some (cs, st) => some (c.toList ++ cs, st)

/-- The callees of the function at `ip`, remembered (func_graph_proto.go 207-226). -/
def calleesAt (e : Env) (st : St) (ip : Addr) (bytes : Nat) : Option (List Callee × St) :=
  match st.callees ip with
  | some cs => some (cs, st)
  | none =>
    match e.insns ip bytes with
    | none => none
    | some is =>
      match collect e st is with
      | none => none
      | some (cs, st) => some (cs, { st with callees := fun a => if a = ip then some cs else st.callees a })

/-- `print` (func_graph_proto.go 52-55). -/
def print (st : St) (x : Text) (depth : Nat) : St := { st with out := st.out ++ [(depth, x)] }

/-- The loop over the callees (func_graph_proto.go 228-231). -/
def walk (go : St → Callee → Option St) (depth : Nat) (st : St) : List Callee → Option St
  | [] => some st
  | c :: cs =>
    match go (print st c.proto depth) c with
    | none => none
    | some st => walk go depth st cs

/-- `parse` (func_graph_proto.go 196-232); `left` is `maxDepth + 1 - depth`. -/
def parse (e : Env) : Nat → Addr → Nat → Nat → St → Option St
  | 0, _, _, _, st => some st
  | left + 1, ip, bytes, depth, st =>
    let st' := { st with polls := st.polls + 1 }
    if e.stop st.polls then some st'
    else
      match calleesAt e st' ip bytes with
      | none => none
      | some (cs, st) => walk (fun st c => parse e left c.ip c.bytes (depth + 1) st) depth st cs

/-- A function given with `-k` or a program given with `-p`: its BTF function or, for a kernel function without, its name; its
address, the number of bytes to disassemble. -/
structure Root where
  fn : Fn ⊕ Text
  ip : Addr
  bytes : Nat

/-- The root of a kernel function (func_graph_proto.go 292-301); `disasmBytes` is `--disasm-bytes`. -/
def kernelRoot (e : Env) (name : Text) (addr : Addr) (disasmBytes : Nat) : Root :=
  ⟨match findBtf name e.btfs with | .fn f => .inl f | _ => .inr name, addr,
    if disasmBytes ≠ 0 then disasmBytes else e.guess addr⟩

/-- The root of a BPF program (func_graph_proto.go 319-323). -/
def progRoot (fn : Fn) (addr : Addr) (len : Nat) : Root := ⟨.inl fn, addr, len⟩

/-- The line of a root (func_graph_proto.go 292-297, 319). -/
def rootProto (e : Env) (st : St) (r : Root) : Option (Text × St) :=
  match r.fn with
  | .inl f => getProto e st f
  | .inr n => some (n ++ s "\n", st)

/-- The body of the loops of `ShowFuncGraphProto` (func_graph_proto.go 291-305, 318-326). -/
def showRoot (e : Env) (maxDepth : Nat) (st : St) (r : Root) : Option St :=
  match rootProto e st r with
  | none => none
  | some (x, st) =>
    match parse e maxDepth r.ip r.bytes 1 (print st x 0) with
    | none => none
    | some st => some (print st (s "\n") 0)

/-- The loops of `ShowFuncGraphProto` (func_graph_proto.go 284-327) without the sorting of the roots and the empty line between kernel functions and programs. -/
def showRoots (e : Env) (maxDepth : Nat) : St → List Root → Option St
  | st, [] => some st
  | st, r :: rs =>
    match showRoot e maxDepth st r with
    | none => none
    | some st => showRoots e maxDepth st rs

/-- The state at the beginning (func_graph_proto.go 272-279). -/
def initial : St := ⟨fun _ => none, fun _ => none, fun _ => none, [], 0⟩

/-- What is on standard output: two dots for each level (func_graph_proto.go 48-55). -/
def stdout (st : St) : Text := (st.out.map fun l => (List.replicate l.1 (s "..")).flatten ++ l.2).flatten

end Bpfsnoop.Ct
