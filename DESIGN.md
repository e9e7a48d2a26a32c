# Formal model of bpfsnoop/bpfsnoop in Lean 4 — design

The Go and C sources in /repo are read as text. Nothing is compiled or run. Every Lean definition
cites the file and lines it models (`tools/cites.py` checks that the cited lines exist and lie in one
function).

## Layout

* `properties.jsonl` — the claims C01, C02, … in English.
* `lean/Verif/Model/*.lean` — the model, function by function. No proofs.
* `lean/Verif/Spec/*.lean` — the separate specification of the expression language (meaning of expressions,
  and the static check `shape` that delimits the verified fragment). Other specifications are small and stand at
  the beginning of the `Props` file that uses them, under the heading *Specification*.
* `lean/Verif/Props/*.lean` — the theorems. `..._violated` is a concrete case in which the code does not do what the
  claim says; `..._partial` is what does hold of it, with the missing part named in its comment and in the manifest.
* `MANIFEST.json` (made by `tools/manifest.py`) — which theorems carry which claim.
* `seeded/LOG.jsonl` — the wrong programs the theorems were tried on (`tools/mutate.py`).

## Plan, property by property

| property | modelled | how proved |
|---|---|---|
| C01 filter = expression | BPF machine (BitVec 64 registers, forward jumps, helper calls), whole of `cc.evaluate` | simulation by induction on the expression against a C-like denotational spec |
| C02 constant folding | fold table | per-operator BitVec equation; run-time machine op as oracle |
| C03 div/mod by zero | emitted guard | exec lemma for all operands |
| C04 0/1 answer | compile | case analysis on top operator + exec lemma |
| C05 forward jumps/termination | pc-based machine | jump targets invariant by induction on expression |
| C06 register allocator | `RegisterAllocator` | invariant over operation histories |
| C07 NULL rejects | exit label | exec lemma; counterexample for `\|\|` |
| C08 chains | probe/core/direct emitters | induction on the chain |
| C09 bit-fields, C10 widths | materialize tails | BitVec extensionality |
| C11 caller-saved | push/pop | exec lemma; counterexample |
| C12 literals | parseNumber on characters | induction on digits against positional value spec |
| C13 output functions | compileFuncCall | case analysis |
| C14 acceptance | compile | case analysis |
| C15 pointer scaling, C16 comparison width | add/sub/index, adjustNums | BitVec arithmetic; counterexamples |
| C17, C18 argument decode | encoder (generated BPF) + decoder | round trip by induction on the list |
| C19, C20, C21 user-space event loop | Run loop as state machine | induction over event histories |
| C22, C23 kernel sessions, fgraph depth | per-task stack state machine | induction over well-nested histories |
| C24 kallsyms | sort + binary search | search invariant |
| C25, C26 histogram | bucket list, bars | induction over samples |
| C27 flame graph | trie of frames | induction |
| C28 LBR | grouping | induction over records |
| C29–C33 utilities | direct | BitVec / list lemmas |
| C34 cache | cache + file state machine with crash points | invariant over histories |
| C35 flag bits | bit packing on both sides | BitVec lemmas |
| C36 program selectors | parser on characters | case analysis against a grammar |
| C37 modes and probes | choice of attachments, `get_bpfsnoop_mode` | case analysis over all combinations |
| C38 kernel function selection | match, eligibility, deny lists | induction over the list of functions |
| C39 packet tuple | header decode in BPF and printing | byte-level lemmas |
| C40 graph discovery | worklist under arbitrary schedules | invariant over schedules; termination measure |
| C41 tail-call safety | prologue detector, trampoline scan, decision | byte-level lemmas against the JIT's prologue |
| C42 rendering of values | `btfx.ReprValue` and callers | induction on types; read-back of numbers |
| C43 graph costs | user-space session time stamps | invariant over histories, balanced sequences |
| C44 background loading | two program counters, all schedules | invariant over schedules |
| C45 KASLR | address translation | BitVec arithmetic |
| C46 unknown symbols | `Addr2Line.get` | case analysis |
| C47 programs traced | `prepareProgInfos` | induction over selectors and programs |
| C48 kernel function selectors | parser on characters | case analysis against a grammar |
| C49 event layout | C struct written, Go struct read | byte-level round trip |
| C50 filters run | program surgery and BPF decision | list lemmas on instructions |
| C51 surgery keeps the program whole | `injectInsns`, `__clearSubprog` | list lemmas on instructions |
| C52 exit labels | goroutines that share the label counter, step by step (`Lbl.World`), the assembler's symbols (`Lbl.assemble`), the compiled expressions of C15 | invariant over schedules; that a compiled expression notes its label by induction over expressions |
| C53 options | `ParseFlags` after reading | case analysis against a specification of the accepted options |
| C54 kernel reads | `readKernel` and read.c, shared buffer | induction over histories of reads |
| C55 disassembly | address, size, padding, listing loop | induction over the bytes; decoder a parameter |
| C56 instruction tracing | `parseFuncInsns` | induction over the instructions; decoder a parameter |
| C57 lines of code | search in line records, paths, dispatch between programs and kernel | loop invariant of the binary search; specification of the last record |
| C58 table of BPF functions | `newBPFProgInfo`, `parseProgs`, `AddProgs` | induction over programs and functions; panics kept |
| C59 stacks | `bpf_get_stackid` buckets, queue of events, look-up-and-delete | induction over histories; counterexamples |
| C60 branch records | per-CPU buffer, bounded map by session, queue of events | invariant over histories without interruption; counterexamples |
| C61 tracepoints | piecewise reading, walk of the module list, merging, selection | induction over the pieces, chain of modules, map as set of bindings |
| C62 modules searched | files of /sys/kernel/btf, inference from options, walk over the files | sorting lemmas, walk equals one search of all functions (C38) |
| C63 hookable functions | memory as partial map of bytes, pieces of 1024, map of return addresses | bytes to numbers, induction over the pieces, composition with C23 |
| C64 layouts | types as finite trees, text as list of characters | mutual induction over types and members |
| C65 prototypes | as C64 | text up to the first and after the last delimiter is determined; induction over the parameters |
| C66 call tree | state with the three memories, disassembler as parameter, recursion over the depth left | invariant: what is remembered is what would be computed; relational tree, chains by induction |
| C67 reading expressions | compiled expression (as C18) in the stub of read.c, history of calls | composition of C01 and C18, induction over the history |
| C68 start and end of a run | `main` as a list of fallible steps and deferred calls, feature gates | rules for the steps, invariant over every moment of every run |
| C69 line of an event | the line as bytes, Go's durations and clock times | reading back, cutting the line at blanks from both ends |
| C70 listing of BPF programs | the loops of `DumpProg` over functions and instructions, disassembler as a parameter | induction over the code left; rows regrouped from the text |
| C71 debug files | places of vmlinux, a tree walk, the table of modules, histories | induction over trees, lists and histories |
| C72 expressions and functions | names of parsed expressions, selection for a function, the compiler of C01/C18 | induction over expressions and lists; the compiler looks at parameters in one place |
| C73 names and arguments | the words the programs read, groups of (m), corrected types; the compiler and the meaning of C01 | the meaning depends on the named arguments only; words of a call in order; a probe call for the converse |
| C74 functions of a graph | the checks of `add`, include, exclude, deny list and roots, on top of the exploration of C40 | walks over type information by induction; an invariant that what is in the map was reached and that roots are entered; C40 for the rest |
| C75 notations | the switch of `__outputFuncArgAttrs` with the notations of the Go library it uses; a separate reader of the texts (Spec/TextSpec) | fields between separators by induction; the reader applied to the text gives the bytes back; injectivity follows |
| C76 actions | `Action` of both kinds and `outputFnRetval`, with the conversions of the captured bytes | case analysis against a separate table of the kernel's actions |
| C77 branch lists and stacks | `updateInfo`, `format` with and without colours, widths of columns, numbering, the lines of `fnStack`; a separate reader of the lines (Spec/ListSpec) | words of padded texts by induction; the reader gives back each place; widths as maxima over all entries |
| C78 listing of prototypes | `ShowFuncProto`, `printKfuncProto`, over `Pt.showFunc`, `Km.findFuncs`, `Km.detect`, any order of the maps; a separate reader (Spec/ProtoListSpec) | text as sections of blocks, blocks as lines, lines read back; soundness and completeness of the list from C38 and C62; the mark against the filter of the search |
| C79 graph of calls | tasks as trees of calls under any schedule (`hits`), `bpfsnoop_fgraph` with `try_get_session` and its record in bytes, the root programs by `Att.sstep`, the reader by `Run.run`; what is to be printed by recursion over the trees (Spec/GraphRunSpec) | invariant over the schedule joining the open calls of each task with the kernel map of sessions, the user-space table and the stack of time stamps; the record read back; each violated assumption with a run |
| C80 lists of the kernel | scanner, fields, trimming and number parsing on characters (`Sf`), composed with the tables of `Kallsyms`, the flags of `Flg` and the reads of `KRead`; what the kernel writes as `%px %c %s\t[%s]` etc. (Spec/SysTextSpec) | induction over lines and characters: reading what was written gives back the records; the rest by the theorems on tables |
| C81 texts at the end | the printed lines of histogram, t-digest and flame graph as characters (`Ht`) over `Hist` and `Flame`; readers for lines, words, numbers and folded stacks in Spec/SummarySpec | composition of the counting theorems (C25, C27) with a proof that the readers invert the printers |
| C82 arguments as text | the printer of arguments and return value (`Ft`) over the generated code and buffer layout (`Arg`), the text of a value (`Rp`) and of actions (`Ot`) | execute the generated code, read the buffer back (C17), then show the printed list is `join` of one text per argument, by induction on the parameters |
| C83 from call to terminal | the path of an event put together (`Wh`): filter (`Cc`), packet filter (around the code of the pcap library, which is a predicate), argument code (`Arg`), record (`Att`), records of traced instructions (`Ir`) and of functions of graphs (`Cg`), loop (`Run`), line (`Ln`, `Ft`) | per moment: the emitted record exists iff the moment is wanted and its text is the block; then induction over the history with an invariant that ties the open calls to the kernel's session tables (C22) and to the reader's sessions, with the lines of the instructions and of the functions of graphs gathered in each open call, and the open calls of these with their times |
| C84 instructions under their calls | tasks that execute instructions and make calls, scheduled anyhow (`Ir`); the probe program, its record, the reader, over `Att.sstep` (sessions in the kernel) and `Run.steps` (sessions of the reader); the table of instructions over `Dis` | induction over the schedule with an invariant that ties the open recorded calls of all tasks to both session tables and the lines collected so far to the instructions executed so far |
| C85 from the options to the programs attached | the start as a relation (`Pn.Planned`): the search (`Km`), the detection (`Tr`), the tracepoints and the merge (`Tp`), the groups of `(m)`, the choice of hooks (`Att`), then the kernel's answers (`Pn.finish`); order of maps and goroutines as permutations | composition of the theorems of those modules; the list of programs up to permutation, filtered by what runs at a function |
| C86 ids of calls open at the same time differ | what the program reads for the id, over memory as a parameter (`Sid.sessionId`); specification of the trampoline's frame (`Sid.Tramp`) and of the calls open in a task (`Sid.Hist`) | induction over the history: the frames of the callers strictly decrease, the low halves differ, injectivity of the id |
| C87 reading the BPF programs in the background | the goroutines as a transition system, an assignment to a map as two steps (`Bg.Step`) | invariant over all executions (`Bg.Facts`: the functions entered and those still to be entered are a permutation of all), a bound that every step decreases, absence of stuck states |
| C88 branch recording | the branch types, the system calls and what stays open as a history (`LbrEv.openAll`) | induction over the types (bit by bit) and the CPUs |
| C89 command line to lines | the programs attached by `Pn.Planned`/`Pn.finish` run in the order attached at each place of the kernel passed; instructions run the probes of `w.insns` that the kernel accepted, functions of graphs the programs of `w.graphs` that it accepted; records and lines as in C83 | the programs at a place are those of C49 up to order (C85), the order does not matter (`Wh.Attached` takes any), places not asked for have no program; then C83 |
| C90 nothing read before written | spec (Spec/CcInit.lean): written registers and slots along the paths of a program; calls forget R1 to R5 | a calculus of paths (`wp`) over instruction lists, an invariant `what the allocator counts as used has been written` through every function of the compiler by induction on expressions; a run agrees with another from a state that agrees on R1 and R10 | the exit label sits on the last instruction of the body, which reads the register of the result: paths to it are covered by `timely` or violated |
| C91 sizes of shared maps | updates of map specifications with 32-bit arithmetic, rules for creating maps (assumed), places of the branch buffers, the verifier's view of `cpu & CPU_MASK`, reads of the stack buffer | arithmetic on bit vectors; the mask from C32 | violated on a number of CPUs that is no power of two, and for the sysctl 0 or changing |
| C92 sessions under interruption | every access of a program to the session map, its elements and the buffer of its CPU as a step; any interleaving; elements reused after deletion | refinement: invariant for every unfinished program, each program takes effect at its last step, so every interleaving without same-key and same-buffer overlap does what the atomic model of C22 does | violated by a program that interrupts another one filling the buffer of the CPU, and by an interrupt calling the function whose entry program is running |
| C93 functions the kernel refuses | the plan of the start (C85), the graph's verdict, the prototypes; the kernel's two lists written down again in the specification | the lists are equal; every planned program of a kernel function is checked against them; a refusal would end the run | violated in one direction: with `(b)` the entry of a noreturn function is left out though the kernel accepts it |
| C94 depth under interruption | every word written into and read from the per-CPU stack buffer as a step; any interleaving of runs | invariant for one run while all others step; refinement of the atomic `tryGetSession` of C23; a measure for the end | violated: a program on the same CPU that captures its stack in between; the first program walks the second one's stack |
| C95 localtest | parser over lists of lines; `test` as a transition system: command, pipes, two scanners, `Wait`, channel of ten, two selects, timers | specification by parts and last values; invariants over all schedules; potential of matches for the end | violated: a name no case has passes without a run; output lost when `Wait` closes the pipes; a dozen matches hang; a second announcement panics |
| C96 stack | `newCompiler` over 64-bit ints; compiler and machine of C11 | slots by arithmetic; every part of the compiler emits instructions within them; induction over runs | violated: the topmost of the reserved words is the helpers' |
| C97 selector of -d | relation for what `parseDisasmKfunc` may select | by cases; induction over the modules | violated: names that are hexadecimal numbers; addresses in modules; modules without file or with unreadable debug information |
| C98 links | loop over the links; `canTrace` | last link by induction; the kernel's report as specification | violated: programs attached to kernel functions are left out too; only the last of several links counts |
| C99 limit on parameters | the selection, the check of the entries, the choice as nondeterminism, loading as a parameter | the kernel's functions as specification; limits and errors as equivalences | violated: no function of that kind is fatal; different answers if only some load |
| C100 callees | reading, disassembling, the switch for BPF programs, the loop over instructions (amd64) | the instruction set's call and jump as specification; induction over the instructions by `insnsOf_nth` | violated: jumps, programs with endbr, functions over 4096 bytes, programs over 64 KiB |
| C101 call graph of code | Graph with Callees: the graph parser's world is what disassembly finds | reachability in the world is reachability by call and jump instructions (`reach_iff`), then C-graph soundness and completeness | completeness for schedules without the race; violated: jumps |

Later claims are described in the section *Modules* below.

## Trusted base

* Lean 4.33.0's kernel. No `native_decide`, no `bv_decide`, no axioms of our own. `decide +kernel` is used only for
  closed statements (the kernel evaluates them).
* Axioms: every theorem listed in the manifest depends on a subset of `propext`, `Classical.choice` and `Quot.sound`
  (checked with `#print axioms`; none depends on anything else).
* The reading of Go and C into Lean by hand. Comments cite the lines; the fidelity of this reading is not checked by
  machine. Go panics are `none` (or a constructor `panic`), endless loops are `none`/`hang` where they can occur, Go `int`
  and fixed-width arithmetic wraps (BitVec or an explicit `wrap64`) wherever the difference is observable.
* The environment, stated as definitions in the model: the BPF instruction set (`CcMach`: 64-bit registers,
  sign-extended 32-bit immediates and 16-bit offsets, division by zero gives 0, shifts modulo 64), the helpers
  `bpf_probe_read_kernel` and `bpf_probe_read_kernel_str`, `bpf_rdonly_cast` (value unchanged, faulting loads give 0), Linux'
  behaviour for hooks (`Hook.fires`), little-endian layout, BTF as a function giving kind, size and members of a type.

## Modules

| model | source | not modelled |
|---|---|---|
| `Util` | mathx/math.go, strx/string.go, bytes.go, bpf_endbr.go, getCalleeIP* | arm64 branch of getCalleeIPFromInsn |
| `Hist` | bpfsnoop_arg_histogram.go, t-digest merge | floating-point t-digest internals |
| `Flame` | flamegraph.go | writing to the file |
| `Lbr` | lbr_stack.go, bpfsnoop_lbr.go | text of one entry |
| `Kallsyms` | kallsyms.go | splitting a line into fields |
| `Cache` | addr2line_cache.go, kaslr.go, addr2line.go | DWARF lookup, xz/json |
| `Run` | bpfsnoop.go Run, bpfsnoop_sess.go, bpfsnoop_insn.go, bpfsnoop_graph.go | text of events |
| `KSess` | bpfsnoop_sess.h, bpfsnoop_session.h, bpfsnoop_mode.h, bpfsnoop_fgraph.c | ring buffer, stack helper |
| `CcNum`, `CcMach`, `CcComp`, `CcFunc` | internal/cc: number, register, all of evaluation, access chains, function calls (what is accepted: `Props/CcAccept`; what survives helper calls: `Props/CcSaved`) | the parser (`rsc.io/c2go/cc`), BTF loading; expressions are syntax trees |
| `ArgMach`, `FnArgs`, `OutArg` | func_arg.go, output_arg.go, bpfsnoop_func_args.go, bpfsnoop_arg.go, bpf_tracing_info.go | final text (in `Repr`) |
| `Flags` | flags*.go, bpf_prog_flag.go, kernel_functions*.go | package glob (a parameter), invalid UTF-8 |
| `Attach` | bpfsnoop_config.go, bpf_tracing*.go, bpfsnoop_cfg*.h, bpfsnoop_event*.h | loading and verification by the kernel |
| `Asm` | bpf_asm.go, bpf_spec.go, filter_*.go, output_pkt.go, bpf_session.go | elibpcap's code (a parameter) |
| `Pkt` | bpfsnoop_pkt*.h, bpfsnoop_pkt.go | CO-RE offsets (parameters) |
| `Graph` | func_graph.go, func_graph_parser.go | disassembler (a parameter), errors |
| `TailCall` | bpf_tail_call.go, decision in bpf_tracing_info.go | disassembler, program loading |
| `Repr` | btfx/types.go | `mybtf.DumpBitfield` (a parameter) |
| `Opts` | flags.go (decisions after reading) | pflag, vmlinux search |
| `KRead` | bpf_read_kernel.go, bpf/read.c | loading the program |
| `Disasm` | disasm.go, bpf_disasm.go, func_insn.go, loop of dump.go | capstone (a parameter), text |
| `LineInfo` | lineinfo.go, bpf_prog_info.go, bpf_progs.go | reading the tables from the kernel, DWARF (a parameter) |
| `StackMap` | bpfsnoop_func_stack.go, bpfsnoop_stack.h, contract of `bpf_get_stackid` with flags 0 | the kernel's hash (a parameter) |
| `LbrMap` | bpfsnoop_lbr.h, output part of bpfsnoop.c, lbr_stack.go, bpfsnoop_lbr.go | the hardware (records are a parameter) |
| `Tp` | kernel_tracepoints.go, bpf_tracepoints.go, bpf_tracepoints_module.go, tracepoint.c, tracepoint_module.c | kernel memory, symbols and BTF (parameters), failing system calls |
| `Kmods` | kernel_btf.go, kernel_functions.go 195-292, func_proto.go 117-135, func_graph_proto.go 57-146, slice.go | directory, BTF and symbols (parameters) |
| `Traceable` | traceable.c, bpf_kfuncs.go, bpf_feature.go 131-143, bpf_tracing_graph.go 280-421 | disassembler (parameter), failing system calls, changing kernel text |
| `Proto` | type_proto.go, btfx/types.go 116-189, func_proto.go 21-59 | colours, cyclic types (only unfoldings; they are cyclic through pointers only) |
| `CallTree` | func_graph_proto.go, kernel_functions.go 93-122 | disassembler, sorting of the roots, arm64, failing to load the detecting program |
| `ReadData` | bpf_read_data.go, read.c 34-60 | loading, attaching, verifier, text |
| `Start` | main.go 27-247, bpf_feature.go 33-108, bpf_tracing.go 87-165 | what the steps compute (other modules), logging; `log.Fatalf` ends the process at once |
| `Line` | bpfsnoop_func.go 25-106, bpfsnoop.go 160-177, bpfsnoop_graph.go 44-48, bpfsnoop_insn.go 31-41 | colours; the text of the arguments is a parameter (other modules); Go's `Duration.String` and `Time.Format` are rewritten for what is printed |
| `DisProg` | dump.go 35-198 | disassembler and naming of addresses are parameters; text of prototypes (`FuncProto`); colours |
| `DbgFiles` | vmlinux.go 35-80, flags.go 160-166, addr2line.go 102-155, 214-302 | reading ELF, DWARF and zstd; symbolic links are files (as for `filepath.Walk`) |
| `ArgSel` | cc/variable.go, filter_arg.go 51-146, output_arg.go 69-104, 333-370 | parser; names below unknown operators (such expressions are rejected: `unsup_rejected`) |
| `ArgVal` | bpfsnoop.c 60-97, bpfsnoop_kmulti.c 31-62, 82-110, bpf_tracing_func_multi.go 96-139, 184-213, 315-341, bpf_tracing_prog.go 30-75 | how a call passes its arguments is specified (`Passed`), not proved |
| `GraphSel` | func_graph_parser.go 216-316, 359-435, func_graph.go 11-101, 125-235, kernel_btf.go 19-46 | symbols, type information and calls are parameters |
| `OutText` | bpfsnoop_arg.go 24-287, bpfsnoop_func_args.go 23-128; Go net, net/netip, encoding/hex | `mybtf.DumpData`, gopacket and colours are parameters or left out |
| `ListText` | lbr_stack.go 28-204, bpfsnoop_lbr.go 100-101, bpfsnoop_func_stack.go 70-114 | names have as many bytes as characters; escape sequences are left out; which branches and frames are shown is in `Lbr` and `StackMap` |
| `ProtoList` | func_proto.go 61-205 | no colours; the programs and tracepoints selected are parameters; debug information is read without error |
| `GraphRun` | bpfsnoop_fgraph.c 14-190, bpfsnoop_graph.go 15-53, bpf_tracing_graph.go 228-267 | a run of a program is one step; no lost records (but see `lost_record_violated`); verdicts and ids of sessions are given with the call; texts are arbitrary functions of what an event holds |
| `SysText` | kallsyms.go 108-228, bpf_tracing_func_multi.go 46-94, bpf_prog_flag.go 175-226, lbr_nr.go 20-62 | texts are ASCII; a file that can be opened can be read to its end |
| `Summary` | bpfsnoop_arg_histogram.go 50-115, bpfsnoop_arg_tdigest.go 36-84, flamegraph.go 85-132 | counters unbounded (exact below 2^64); the centroids come from a library and are arbitrary; the greatest count of a t-digest is searched from 0 instead of from the first |
| `FnText` | bpfsnoop_func_args.go 92-128, 162-293, bpfsnoop_func.go 106-147 | colours off; a panic is `none`; the symbol lookup is a function |
| `Whole` | bpfsnoop.c 28-137, bpfsnoop.go 66-247 | the code of the packet filter is a predicate; what lies behind a record in the ring buffer is a parameter; the ring buffer keeps the order and is not full; texts of packets, branches, stacks and --output-arg are functions of what is read |
| `InsnRun` | bpfsnoop_insn.c 16-61, func_insn.go 22-88, bpf_tracing_insn.go 31-61, bpfsnoop_insn.go 14-42, bpfsnoop.go 99-104, dump.go 18-33 | a run of a program is one step; the ring buffer keeps all records in order; the map of sessions is not full; the disassembler is a parameter |
| `Plan` | main.go 100-195, bpf_tracing.go 87-118, bpf_tracing_func.go 28-65, 147-229, bpf_tracing_prog.go 154-221, bpf_tracing_func_multi.go 39-136, 262-341, bpf_tracing_insn.go 38-74, bpf_tracing_graph.go 105-141, kernel_functions_multi.go 28-57, flags_kfunc.go 115-126, kernel_functions_match.go 21-41, flags.go 358-376 | the answers of the kernel, and which BPF programs, instructions and functions of graphs are wanted, are parameters |
| `Sid` | bpf/bpfsnoop_stack.h 51-124, bpf/bpfsnoop.c 38-56, 103-108, 125, bpf/bpfsnoop_kmulti.c 70-80, 124, 144 | memory and random numbers are parameters; the frame of the trampoline is a specification |
| `Bg` | bpf_prog.go 35-123, bpf_tracing_prog.go 87-88, main.go 150-193, bpf_tracing.go 110 | sequential consistency; reading a map entry is one step; what a tracer writes into the entry is left out |
| `LbrEv` | lbr_perf_event.go, lbr_perf_event_linux.go, main.go 70-78 | the system call is a parameter; texts of errors left out |
| `Labels` | output_arg.go 343-393, bpf_tracing.go 87-117 | memory sequentially consistent; the assembler of the eBPF library trusted |
| `PktInject` | bpf_tracing.go 203-286, filter_pkt.go 40-120 | the library elibpcap is a parameter: what it returns and whether it reports an error |
| `Maps` | bpfsnoop_maps.go, kernel_sysctl.go, bpf_tracing_graph.go 170-192, main.go 89-93, bpfsnoop.c 74-75, bpfsnoop_fgraph.c 97-131, bpfsnoop_func_stack.go 16-45 | the rules of the library and the kernel for creating maps and the range check of the verifier are assumptions |
| `SessConc` | bpfsnoop_sess.h 52-105, bpfsnoop_session.h 15-54 | atomicity of map operations, reuse of elements: assumptions about the kernel; `depth` is read once per program |
| `StackConc` | bpfsnoop_fgraph.c 52-135 | what `get_session` says is given with the run (C92); `bpf_get_stack` copies word by word (assumption) |
| `LocalTest` | cmd/localtest file.go, test.go 35-158, main.go 72-79, command.go 28-33 | `time.ParseDuration` is a parameter; processes required or triggered left out; lines of test files below 64 KiB; a pipe holds everything |
| `CcNew` | internal/cc/compiler.go 16-19, 48-99 | BTF lookups are their outcomes; copying of parameters is `Made.opts` |
| `DisSel` | disasm.go 80-152 with the parts of addr2line.go 217-275 it sees | debug information is a parameter; so are the functions that `findKernelFuncs` finds |
| `Links` | bpf_link.go 12-49, bpf_tracing_info.go 82-104 | the iterator is a list of its answers |
| `MaxArg` | kernel_functions_max_arg.go 14-58, kernel_functions.go 124-222 (many parameters) | BTF readable, patterns compile; loading is a parameter |
| `Callees` | func_graph_parser.go 100-129, 150-214 | amd64; the disassembler gives lengths; arm64 not modelled |
| `GraphCode` | func_graph_parser.go 150-214, 351-446 | puts together Graph and Callees; errors, which end bpfsnoop, are outside the theorems |
| `OutText` (second part) | bpfsnoop_func_args.go 23-128 | as above |
| `Props/FuncProto` | (uses `Proto`) | |

Not modelled at all: command-line library, colours, signal handling, perf/LBR hardware set-up, `lbr_nr.go`,
`bpf_link.go`, `vmlinux.go`, loading of BTF, the kernel's verifier.

## What the proofs found

Each item is a theorem (`..._violated`, or an exact condition) unless marked *(read)*, which means seen in the source but
outside the model.

* **Expressions** (`CcViolate`, 26 theorems; `fold_signed_violated`): constant folding is signed while run time is unsigned;
  immediates above 32 bits are truncated; values kept in R0–R5 do not survive helper calls; `n + p`, `p - q`, `++p` do not
  scale; an outermost `||` accepts although its left side met NULL; `*pp` is not NULL-checked in core mode; 32-bit
  literals with the top bit are sign-extended in comparisons; a constant divisor with zero low half divides by 0.
* **Literals**: values from 2^63 wrap; `-+5` is accepted.
* **Output functions**: a call without arguments panics; literals from 2^63 give negative offsets; slice sizes overflow;
  `str` of an empty array has size 0.
* **Argument capture**: parameters passed in two registers are mis-decoded; histogram and t-digest samples do not consume
  their bytes; offsets from 32 KiB wrap; a 16-byte struct with a trailing empty array panics the printer; Boolean and enum
  members look at the whole word; negative enumerators are not recognised; all bit-fields of a struct show the bits at
  offset 0.
* **Events**: `--limit-events` from 2^63 prints nothing; durations are modulo 2^32 ns; a graph event on a plain session
  panics; graph entry events show no arguments on kernels with fsession; with fsession, instruction and graph events never
  appear; the root of a graph is hidden when it lies beyond the captured stack; packet tuples show stale ring-buffer bytes,
  mask IHL to 3 bits, take fragments' payload for ports; `--skip-tunnel` fails with outer IP options.
* **Sessions in the kernel**: a rejected recursive call steals the outer session; more than 64 nested calls overwrite ids;
  id 0 is dropped; idle tasks of all CPUs share one key.
* **Selection**: an unknown `(x)` prefix hangs `-p` and `-k`; program selectors lose the packet option; repeated selectors
  overwrite each other; `*` overrides; the first matching pattern blocks later ones; without `-m` and `-k` the mode is not
  the documented one; `(m)` functions are grouped by argument index and use the first one's options; `-g` with `(m)` prints
  nothing.
* **Program surgery**: `__clearSubprog` drops the name of a function that begins with a call of the removed one; labels of
  `--output-arg` race; `(m)` programs keep the default packet filter, which drops events.
* **Graph discovery** depends on the schedule: functions are lost, the root mark varies.
* **Tail calls**: the displacement is taken as unsigned, so a trampoline below the probe program makes bpfsnoop fail;
  JIT code of 1–3 bytes panics the probe.
* **Symbols**: addresses above the last symbol's start are unknown; an empty table panics; a symbol-less address with line
  information panics; background loading races and, when it fails, hangs the reader.
* **Cache**: concurrent savers lose entries; no fsync; entries are keyed by run-time address and are stale after reboot.
* **Histogram**: adding 0 panics; the last label is wrong; bars overflow; `Mask` diverges from 2^62 on; a function named
  `root` is merged with the flame graph's root.
* *(read)* `MkdirAll(.., 0x666)`; `isUntraceable` is dead code; only the first matching
  `--filter-arg` applies; `g.Bprog.prog` is overwritten and closed.
* **Options**: a leading blank hides a second `hist(`; `(l)` on a tracepoint does not open the LBR events.
* **Kernel reads**: a fault reads as zeros; 65529 to 65536 bytes return what earlier reads left; the seven largest sizes panic.
* **Disassembly**: an instruction ending in 0x90 or 0xcc at the end of a function loses that byte; a function named like a
  hexadecimal number cannot be selected by name; tracing the instructions of a function of one to three instructions panics.
* **Lines**: two records at one address, or an address below the first record, panic; a file in a hidden directory loses its
  leading dots; a build path containing the directory name twice is cut at the first.
* **BPF functions**: a program with line records but no JIT code panics the start when traced and fails it otherwise.
* **Stacks**: the map is emptied by the first reader, so the second of two waiting events with one stack has none, or gets a
  later event's; hash collisions show another stack; a dropped event's stack blocks its bucket; `(m)` functions show no frames.
* **Branch records**: the buffer of a CPU is shared by all tracing programs, so a program interrupted between reading and sending
  shows the other's records or none; two events with one random id show one's records; records of dropped events stay, and 65536
  of them (reachable with `(m)(g)(l)` at exit) fill the map for good. `CPU_MASK` exceeds the buffers unless the number of CPUs is a
  power of two (`Util.mask_fits_iff_violated`).
* **Tracepoints**: one prototype that cannot be resolved fails all; names agreeing in 63 characters are merged; more than 256
  modules are an error; a name in two modules depends on map order. *(assumed)* the record size compiled in is the one of BTF.
* **Modules searched**: `slices.Delete(kmods, idx, 1)` should end at `idx+1`: with `vmlinux` given and two modules before it the
  search panics, so --show-func-proto with two modules always does; with one it reads the kernel twice. An option with a flag such
  as `(b)veth_xmit` never has its module inferred; a module whose name begins another's hides it; a name shared with a struct makes
  `detectKfuncTraceable` dereference nil.
* **Hookable functions**: on a kernel with endbr instructions a function without one is dropped although it can be traced, and its
  return address in stacks would be four bytes off; on arm64 a `bl` reaching 64 MiB or more is taken for no hook; a function whose
  own code begins with a call or jump counts as hookable; sixteen bytes must be readable.
* **Layouts shown**: a typedef of a pointer runs into the name of the member (`fl_owner_tflc_owner;`); arrays have no semicolon;
  qualifiers before a typedef are dropped; negative values of enums are shown as huge ones; a name with several types (a struct and a
  function) is reported as not found (the error is assigned to a shadowing variable); prototypes of functions come before everything
  else, whatever the order asked for; offsets are taken modulo 2^32 bits.
* **Prototypes shown**: the dots of a variadic function are shown as a parameter `void`; a pointer to a function shows as `func *`
  whatever its result and parameters.
* **Call tree**: with `--disasm-bytes` the calls cut off are also missing where the function is called by another; after an
  interrupt the calls at the levels already entered and all further functions are still shown, so the output is not a beginning of
  the report; a BPF function named like a kernel struct (or another ambiguous name) crashes the command: the error message uses the
  function that was not found; a BPF function is marked `[traceable]` if the kernel function of its name is; kernel functions whose
  name is ambiguous are shown without prototype; functions that do not return are never marked although they can be traced on entry.
* **Reading expressions**: results of 32 KiB and more cannot be loaded (16-bit offset of the status byte), although the buffer has
  64 KiB; the first expression that fails ends the program, the later ones are not tried.
* **Start and end**: a fatal error makes none of the deferred calls: if reading events fails, recording stays on and the probes stay
  attached until the kernel cleans up; the gate for stacks looks only at the command line, not at `(s)` of selectors; the gates are
  checked for `--disasm` and `--show-..` too (a kernel without ring buffers cannot disassemble).
* **Line of an event**: a process can put a newline (`prctl(PR_SET_NAME)`) into its name, which ends the line early and can imitate another
  event (`Ln.one_line_violated`).
* **Listing of BPF programs**: of several source lines that begin at one address only the last is shown; a byte that cannot be decoded loses the
  listing of all functions (the text is printed at the end); if the selectors match several programs one of them is shown, which one depends on
  the iteration order of a Go map.
* **Debug files**: `--kernel-vmlinux` with a file not called `vmlinux` uses another file of its directory or ends bpfsnoop, even if no debug
  information is wanted; an unreadable directory hides all debug files after it; code of a module outside `.text` is looked up at the wrong place
  unless its section has the same distance in memory as in the file; debug files installed later are not found.
* **Expressions and functions**: of two filters about a function the second is ignored; a filter mentioning one parameter of a function and a name
  it does not have makes tracing fail although another filter fits; expressions on memory at a constant address are refused at the start;
  a call without arguments (`buf()`) crashes; `true`, `false`, `NULL` count as variables, so `1 == true` is accepted and never applied.
* **Names and arguments**: a parameter after one of more than 8 bytes is read from the wrong place (`right_word_iff`: never right otherwise);
  with `(m)`, arguments not in registers read as 0, a filter on a parameter that has another place in another function of the group tests
  another argument, functions of selectors naming different arguments at the same place share the filter of the first, an --output-arg about
  another function ends bpfsnoop, and so does a selector with a type but no argument name.
* **Functions of a graph**: a function whose graph is asked for and that no `--fgraph-include` pattern matches has no graph at all
  (`unlisted_root_violated`); `--fgraph-include '*'` lets in functions whose parameters take too many registers, none does not; without
  `--fgraph-include` one called function with a parameter of more than 16 bytes makes bpfsnoop fail; functions that a denied function calls
  disappear even if asked for, but not if `--fgraph-include` leaves out the denied function.
* **Line of `--output-arg`**: a histogram or t-digest after another expression leaves `, ` with nothing behind it; one that meets a NULL pointer
  is followed by the next expression without a comma (`trailing_comma_violated`, `missing_comma_violated`).
* **TC actions**: a negative return value, `TC_ACT_UNSPEC` (-1) above all, is shown as an unsigned number (`4294967295`): `tcAction(u32)` loses the
  sign (`tc_unspec_violated`).
* **Call stack in colours**: the name of a function longer than 51 characters and its offset is followed by blanks in colours and not without
  (`%-*s` with the negative width `50-len`, `frame_colours_violated`).
* **Listing of prototypes**: an error of `NewBPFProgs` is not looked at and crashes the tool (`program_error_violated`); with `-m entry,exit` functions
  that do not return are marked `[traceable]` and not traced (`noreturn_marked_violated`); functions with several addresses listed for `(m)` are never
  marked (`duped_unmarked_violated`); of functions with one address only one is listed (`alias_hidden_violated`); if the first `-k` names a function of
  a module, no other module is searched, not even those of `--kfunc-kmods` (`first_module_only_violated`).
* **Graph of calls**: on a kernel with `fsession` no line of the graph is ever printed, the session is kept in the cookie and the programs in the graph look
  in the map (`fsession_no_records`, `fsession_violated`); a rejected call in a recorded call of the same function ends the block of the recorded one
  (`rejected_recursion_violated`); equal ids merge blocks (`same_id_violated`); a lost record shifts all later durations (`lost_record_violated`).
* **Lists of the kernel**: a function of a module makes a kernel function of the same name count as attachable (`Sf.available_name_only_violated`), and one
  that cannot be attached makes `(m)` fail for the whole group; a `prog_id:` line without number panics; an unreadable number of branch records stops
  the tool with the message that it is zero (`Sf.lbr_nr_fault_violated`).
* **Texts at the end**: a run that sees no stack leaves the flame graph file of an earlier run in place (`Ht.flamegraph_stale_violated`); the error of
  writing the file is ignored (bpfsnoop.go 80); histograms print wrong ranges only for 2^63 and above and panic on zero (C25).
* **Instructions** (`(i)`): on kernels with `fsession` no instruction is ever shown, since the probes look for the session in a map that only the other
  programs fill (`Ir.fsession_no_records`); an instruction of a rejected call is shown under the recorded call of the same function around it, which is
  closed early (`Ir.rejected_recursion_violated`); probes are asked for by name, so with two functions of one name the wrong function is
  watched (`Ir.misplaced_violated`); a function of one to three instructions makes the tool panic (`Ir.short_function_violated`).
* **`(m)`**: the line of a return shows as arguments whatever is in the argument registers at that time (`Wh.multi_return_args_violated`); in mode "exit" the
  filter expression is dropped and every return is printed (`Wh.multi_exit_filter_violated`). Without `--filter-pkt` the C source of the packet filter stays in the
  program: it takes the first argument for an `sk_buff` and drops calls for which that one looks empty (`Wh.default_packet_violated`); `--skip-tunnel` has no effect
  (`Wh.multi_skip_ignored`, `Wh.multi_skip_tunnel_violated`).
* **The start**: without tracefs nothing can be traced, `(m)` or not (`Pn.no_tracefs_violated`); on kernels without `fsession` the entry can be attached and the
  exit skipped, and the run goes on with half of what was asked for (`Pn.half_violated`); two `(m)` options that meet in one function end the run (`Pn.overlap_violated`);
  `(m)` anywhere but in front ends it too (`Pn.stray_violated`); a function selected with and without `(m)` is shown twice (`Pn.twice_violated`); `Cannot recursively attach`
  is looked for where the kernel does not say it (`Pn.recursive_violated`).
* **Ids of calls**: on kernels without frame pointers (ORC) and for `(m)` and tracepoints only the random half tells calls apart (`Sid.orc_violated`, `Sid.kmulti_violated`,
  `Sid.tp_violated`); another tool's fexit on the function makes the program read the wrong word (`Sid.foreign_fexit_violated`); on arm64 the search for the
  trampoline's frame never succeeds because it compares the result of the read and not the word read (`Sid.arm_never_detected_violated`); an id can be 0 (`Sid.zero_iff`).
* **Reading programs in the background**: a tracer does not wait for the table: if it is faster, the entry is nil and bpfsnoop crashes (`Bg.early_violated`); it reads the map without
  the lock while another goroutine writes it, which is fatal in Go (`Bg.write_race_violated`), and so does the end of the reading against `AddProgs` (`Bg.add_race_violated`).
  With one wait in front of the tracers all schedules would be safe (`Bg.calm_no_crash`).
* **Perf events for LBR**: after a refusal the events opened before stay open, because the error of the loop is another variable than the one the deferred function looks at
  (`LbrEv.leak_violated`); a CPU that is possible but offline keeps bpfsnoop from starting with LBR at all (`LbrEv.offline_violated`).
* **Exit labels**: `labelCnt` is read and incremented by several goroutines without a lock. With three expressions and two functions (or two and three) an expression can get the label of
  the one before it; the assembler refuses the program and bpfsnoop ends with an error (`Lbl.race_violated`, `Lbl.race_two_violated`).
* **Packet filter**: an invalid `--filter-pkt` is an error for functions with an `sk_buff`, but is ignored for BPF programs (`__sk_buff`, `xdp_md`): the error is assigned to a
  variable of the case and the program is loaded without the filter (`Pin.ctx_violated`).
* **C89** joins C85 and C83: the hypotheses left are those of the two (kernel accepts the programs; types `Simple`; histories `Proper`; not both with and without `(m)`; homogeneous `(m)` groups; `(i)` and `(g)` where the function has no session program, C84, C79).
* **Records of graphs**: the size in a record of a function of a graph counts the header of 32 bytes, but the reader takes so many bytes behind the header: it reads 32 bytes of whatever
  follows in the ring buffer, and panics if there are not so many (`Wh.graph_record_violated`). A function traced at both ends that is also a node of another function's graph, without `(g)` itself, makes the reader panic (C43).
* **C90** (Spec/CcInit.lean, Props/CcInit.lean): the natural filter `skb && skb->dev->ifindex == 1` (`early_exit_uninitialised_violated`) is compiled so that a NULL pointer jumps to `r = r ^ r` with a register never loaded, because the left operand is loaded only after the right one has been computed: the verifier refuses the program (`R7 !read_ok`). Likewise `((struct T *)0)->a` (R0) and the fourth live value across a helper call (R5, C11).
* **C91** (Model/Maps.lean): `.data.lbrs` has one buffer per possible CPU, but `CPU_MASK` is the next power of two minus 1: on 6, 12, 24 or 48 CPUs `bpfsnoop_lbr_buff[cpu & CPU_MASK]` may lie behind the value as far as the verifier knows, and it refuses the tracing programs (`accepted_iff_violated`). With `kernel.perf_event_max_stack` 0 the map of stacks, created even if no stack is shown, cannot be created; changing the sysctl while functions are attached makes the lookup of stacks fail.
* **C92** (Model/SessConc.lean): `add_session` fills a per-CPU buffer shared by all programs and then copies it into the map. A program that interrupts (or preempts) another one in between stores its own id there: the first call then ends with the session id of the second one (`shared_buffer_violated`). An interrupt that calls the function whose entry program is just running takes the session of the outer call (`same_function_violated`), and the interrupted program then writes into a freed element, which may belong to another task by then (`freed_element_violated`).
* **C93** (Props/Refused.lean): with `(b)`, `(i)` or `(g)` a function such as `do_exit` is not traced at all, though its entry could be (`entry_lost_violated`); the whole run would end if the tool tried its exit (`would_end`).
* **C94** (Model/StackConc.lean): `bpfsnoop_fgraph_stack` is one buffer per CPU for all programs of all graphs. A graph program that interrupts or preempts another one between `bpf_get_stack` and the end of the loop overwrites the captured stack: the event gets the depth of the other stack or is lost (`walks_buffer_violated`, `stack_mixed_violated`).
* **C95** (Model/LocalTest.lean): `localtest --test-file f --name x` prints ALL TESTS PASSED when no case is called x (`nothing_run_violated`); `cmd.Wait` runs concurrently with the readers of its pipes, so output of a command that ends can be lost (`output_lost_violated`); `matched` holds ten elements and only one is taken, so a command that prints a dozen matching lines can hang the runner after the test has passed (`hang_violated`); a second `bpfsnoop is running..` closes a closed channel (`panic_violated`); a file that ends with `---` fails (`trailing_separator`).
* **C96** (Model/CcNew.lean): `ReservedStack` bytes are not all the caller's: the word at R10-8 is overwritten by every helper read (`top_word_violated`; bpfsnoop asks for 16 and keeps nothing there); a reservation within seven of the largest int wraps to a negative one (`reserved_wraps_violated`, not reachable from the tool).
* **C97** (Model/DisSel.lean): an address in a module's function is looked up in the module's debug information as it is in memory, not in the file, and not found (`module_address_violated`); a module without file ends the search although another has the function (`missing_module_violated`); a module whose debug information cannot be parsed makes it panic on a nil pointer (`unparsed_module_violated`); the branch for a module's symbol is dead (`module_branch_dead`).
* **C98** (Model/Links.lean): `canTrace` takes 0 as the object of programs attached to the kernel, but the kernel reports the id of the BTF object (1 for vmlinux), so all attached fentry and fexit programs are left out, silently (`kernel_target_violated`); one link whose information cannot be read makes all programs unreadable (`one_failure_violated`).
* **C99** (Model/MaxArg.lean): a kernel without a function `ip_*` or `tcp_*` of 7 to 12 parameters (built without IP, or with BTF of few functions) ends bpfsnoop at start, whatever was to be traced (`no_function_violated`); every failure to load counts as the lower limit, so the answer may differ from run to run (`choice_violated`).
* **C100** (Model/Callees.lean): calls made by a jump (tail calls) are not found (`jump_violated`); with endbr a replaced program is not recognised (`endbr_violated`); a kernel function is looked at up to 4096 bytes (`long_violated`); a BPF program over 64 KiB (`large_violated`) or code that cannot be decoded (`undecodable_violated`) ends bpfsnoop.
* **C101** (Model/GraphCode.lean): a call graph has nothing that is reached only by jumps (`jumps_missed`); completeness only for schedules without the race of `Gr.completeness_violated`.
