{"id": "C01", "title": "Filter programs compute the expression they were given", "statement": "For every filter expression built from traced arguments, integer literals, true/false/NULL and the operators + - * / % & | ^ << >> && || == != < <= > >= ?: ! ~ - that the compiler accepts, running the emitted BPF instructions on any argument values leaves in the result register exactly the value that 64-bit wrap-around, unsigned C semantics gives the expression.", "quantifier": "all expressions of the fragment (any depth), all argument values, all initial register and stack contents", "why_tests_cant": "the expression space and the argument space are both unbounded; unit tests compare instruction lists for a few literal expressions and never execute them", "anchors": ["internal/cc/evaluate.go: compiler.evaluate, add, sub, mul, div, mod, and, or, xor, lsh, rsh, compare, logical, cond, not, uminus, twid", "internal/cc/compiler.go: CompileFilterExpr, compiler.compile"]}
{"id": "C02", "title": "Constant folding agrees with run-time evaluation", "statement": "Folding a sub-expression whose operands are constants at compile time gives the same value that evaluating the same operator at run time on the same operands would give (signedness included).", "quantifier": "all operators, all pairs of 64-bit constants", "why_tests_cant": "2^128 operand pairs per operator", "anchors": ["internal/cc/evaluate.go: constant branches of every binary/unary operator"]}
{"id": "C03", "title": "Division and modulo by zero are well defined", "statement": "A compiled expression never makes the program divide by zero: dividing (or taking the remainder) by a zero divisor yields 0, and a constant zero divisor is rejected at compile time.", "quantifier": "all dividends, all divisors", "why_tests_cant": "the dividend/divisor space is unbounded", "anchors": ["internal/cc/evaluate.go: compiler.div, compiler.mod"]}
{"id": "C04", "title": "A filter answers yes or no", "statement": "Every program of at most 2^15 instructions (the reach of a BPF jump) produced for a filter expression returns 0 or 1, never another value.", "quantifier": "all accepted filter expressions whose code is at most 2^15 instructions long, all inputs", "why_tests_cant": "needs every expression and every input", "anchors": ["internal/cc/compiler.go: compile", "internal/cc/evaluate.go: emitReg2bool, compare, logical, not"]}
{"id": "C05", "title": "Compiled filters always terminate inside the program", "statement": "All jumps in compiled expression code of at most 2^15 instructions (the reach of a BPF jump) go forward and land inside the emitted code, so the program terminates on every input within as many steps as it has instructions.", "quantifier": "all accepted expressions whose code is at most 2^15 instructions long, all inputs", "why_tests_cant": "a single wrongly patched offset for one nesting of ?:, && or / would break it; tests enumerate a few nestings", "anchors": ["internal/cc/evaluate.go: jump offsets in div, mod, lsh, rsh, compare, logical, cond, not", "internal/cc/bpf_probe_read.go", "internal/cc/bpf_core_read.go"]}
{"id": "C06", "title": "Register allocation is exclusive", "statement": "The register allocator never hands out a register that is in use or reserved by the caller (R9, R10, UsedRegisters), and reports exhaustion instead of reusing one; free makes exactly that register available again.", "quantifier": "all histories of allocate/free/mark operations", "why_tests_cant": "histories are unbounded", "anchors": ["internal/cc/register.go: RegisterAllocator.Alloc, Free, MarkUsed, IsUsed"]}
{"id": "C07", "title": "A NULL pointer on the way makes the filter reject", "statement": "If evaluating a member-access chain meets a NULL intermediate pointer, the filter returns 0 (event not reported).", "quantifier": "all filter expressions containing a multi-step access, all memories in which an intermediate pointer is NULL", "why_tests_cant": "the exit label is attached to whatever instruction happens to be emitted last; this depends on the expression", "anchors": ["internal/cc/compiler.go: compile (labelExit)", "internal/cc/bpf_probe_read.go", "internal/cc/bpf_core_read.go", "internal/cc/bpf_direct_read.go"]}
{"id": "C08", "title": "Member access chains read the addressed bytes", "statement": "The value loaded for a->b.c->d is the memory content obtained by adding each member's offset and dereferencing at each ->, for any number of steps, in every read mode (bpf_probe_read_kernel, rdonly_cast, direct load).", "quantifier": "all offset chains of any length, all memories, all base values, all memory read modes", "why_tests_cant": "chains and memories are unbounded", "anchors": ["internal/cc/materialize.go: emitOffsetChain", "internal/cc/bpf_probe_read.go: emitProbeRead", "internal/cc/bpf_core_read.go: emitCoreRead", "internal/cc/bpf_direct_read.go: emitDirectRead"]}
{"id": "C09", "title": "Bit-field members are extracted exactly", "statement": "Reading a bit-field member yields exactly the bits [offset, offset+size) of the loaded storage unit, zero-extended.", "quantifier": "all bit offsets, all bit sizes, all storage contents", "why_tests_cant": "all (offset,size,content) triples", "anchors": ["internal/cc/materialize.go: bitfield tail of materialize", "internal/cc/evaluate.go: getBitfield"]}
{"id": "C10", "title": "Narrow values are zero-extended to their declared size", "statement": "After loading a value whose type has size 1, 2 or 4 bytes the register holds only those low bytes; 8-byte values are unchanged.", "quantifier": "all loaded values, all type sizes", "why_tests_cant": "2^64 values", "anchors": ["internal/cc/materialize.go: adjustBySize / size tail"]}
{"id": "C11", "title": "Helper calls do not disturb live operands", "statement": "Values of sub-expressions already computed survive the helper or kfunc call emitted for a later sub-expression.", "quantifier": "all sets of live registers, all register contents, all helper clobbers", "why_tests_cant": "depends on which registers happen to be live, i.e. on the whole enclosing expression", "anchors": ["internal/cc/insn.go / bpf_probe_read.go: pushUsedCallerSavedRegsN, popUsedCallerSavedRegsN"]}
{"id": "C12", "title": "Integer literals mean what they say", "statement": "Decimal, hexadecimal (0x), octal (0/0o) and binary (0b) literals, with or without minus, are parsed to the integer they denote, and out of range or malformed literals are rejected.", "quantifier": "all strings", "why_tests_cant": "strings are unbounded", "anchors": ["internal/cc/number.go: parseNumber"]}
{"id": "C13", "title": "Output functions never read a non-positive or unbounded size", "statement": "buf/str/pkt/hex/int-style output expressions are accepted only when the requested size is positive (and in the supported set for integer kinds) and the start offset is not negative.", "quantifier": "all argument combinations of all output functions", "why_tests_cant": "all integers for each argument", "anchors": ["internal/cc/expr_func.go: compileFuncCall, parse of sizes"]}
{"id": "C14", "title": "Only Boolean expressions on inputs are accepted as filters", "statement": "A filter expression is accepted only if its outermost operator is a comparison or logical operator, and never if it folds to a constant.", "quantifier": "all expressions", "why_tests_cant": "all expressions", "anchors": ["internal/cc/compiler.go: compile"]}
{"id": "C15", "title": "Pointer arithmetic scales by element size", "statement": "p+n, p-n, p[n] and &p[n] address base ± n*sizeof(*p), for constant and run-time n.", "quantifier": "all pointers, all indices, all element sizes", "why_tests_cant": "all integers", "anchors": ["internal/cc/evaluate.go: add, sub, evaluateIndex"]}
{"id": "C16", "title": "Comparison constants are compared at the operand's width", "statement": "Comparing a narrow argument (1,2,4 bytes or bit-field) with an integer literal is true exactly when the argument's bits equal/order against the literal truncated to that width.", "quantifier": "all operand widths, all literals, all argument values", "why_tests_cant": "all literal/value pairs", "anchors": ["internal/cc/evaluate.go: adjustNums, compare"]}
{"id": "C17", "title": "Traced function arguments are decoded as they were captured", "statement": "The user-space decoder for function arguments and return value recovers, for every parameter list, the same values (and pointees for pointers) the kernel-side code wrote, each attributed to the right parameter.", "quantifier": "all parameter lists, all captured values", "why_tests_cant": "parameter layouts are combinatorial", "anchors": ["internal/bpfsnoop/output_arg.go: genOutputFuncArgs / outputFnArgs", "internal/bpfsnoop/bpfsnoop_func_args.go: outputFnArgs, outputFnRetval"]}
{"id": "C18", "title": "Custom output expressions are decoded from their own bytes", "statement": "With several --output-arg expressions the i-th printed value is decoded from exactly the bytes the kernel wrote for the i-th expression.", "quantifier": "all lists of output expressions of all kinds and sizes, all data", "why_tests_cant": "lists are unbounded", "anchors": ["internal/bpfsnoop/bpfsnoop_arg.go: __outputFuncArgAttrs", "internal/bpfsnoop/output_arg.go"]}
{"id": "C19", "title": "Entry and exit events of one call are paired", "statement": "In session mode an exit event is reported together with its own entry event's output, once, and never with another call's.", "quantifier": "all interleavings of entry/exit events of any number of calls", "why_tests_cant": "histories are unbounded", "anchors": ["internal/bpfsnoop/bpfsnoop_sess.go: Sessions", "internal/bpfsnoop/bpfsnoop.go: Run"]}
{"id": "C20", "title": "--limit-events stops after exactly that many events", "statement": "With a limit n > 0, exactly n events are printed (or fewer if the stream ends); with 0 there is no limit.", "quantifier": "all limits, all event streams", "why_tests_cant": "all streams", "anchors": ["internal/bpfsnoop/bpfsnoop.go: Run"]}
{"id": "C21", "title": "Reported durations are exit minus entry time", "statement": "The duration printed for a call is the difference of its exit and entry timestamps for durations below 2^32 ns, and calls shorter than the threshold are suppressed.", "quantifier": "all timestamps", "why_tests_cant": "all 64-bit pairs", "anchors": ["internal/bpfsnoop/bpfsnoop_func.go", "internal/bpfsnoop/bpfsnoop.go", "bpf/bpfsnoop_sess.h"]}
{"id": "C22", "title": "Kernel-side session ids nest like calls", "statement": "For properly nested, recorded calls on a task, the exit probe obtains the session id generated by the matching entry, at any nesting depth up to the supported maximum, and never another task's.", "quantifier": "all nested call histories, all tasks", "why_tests_cant": "histories are unbounded", "anchors": ["bpf/bpfsnoop_sess.h", "bpf/bpfsnoop_session.h", "bpf/bpfsnoop.c"]}
{"id": "C23", "title": "Function-graph depth is tracked exactly and bounded", "statement": "The depth attached to a function-graph event is the number of enclosing traced calls in the captured stack (at most perf_event_max_stack frames), events deeper than the maximum are dropped and their exits do not unbalance the depth.", "quantifier": "all call stacks and all nested call histories within the captured stack", "why_tests_cant": "histories are unbounded", "anchors": ["bpf/bpfsnoop_fgraph.c", "bpf/bpfsnoop_stack.h"]}
{"id": "C24", "title": "Symbolisation finds the enclosing kernel symbol", "statement": "Looking up an address returns the symbol with the greatest start address not above it (none if below all), for any kallsyms content.", "quantifier": "all symbol tables, all addresses", "why_tests_cant": "all tables", "anchors": ["internal/bpfsnoop/kallsyms.go: kallsyms.find, index"]}
{"id": "C25", "title": "Histograms count every sample in the right power-of-two bucket", "statement": "Each added value is counted exactly once, in the bucket whose label range contains it; bucket counts sum to the number of samples.", "quantifier": "all sample sequences", "why_tests_cant": "sequences are unbounded", "anchors": ["internal/bpfsnoop/bpfsnoop_arg_histogram.go"]}
{"id": "C26", "title": "Histogram bars fit the width", "statement": "A rendered histogram bar always has exactly the configured width, and longer counts never have shorter bars.", "quantifier": "all counts, maxima and widths", "why_tests_cant": "all triples", "anchors": ["internal/bpfsnoop/bpfsnoop_arg_histogram.go: printStars"]}
{"id": "C27", "title": "Flame graph counts are conserved", "statement": "The folded output lists each distinct stack once with the number of times it was added; the total is the number of added stacks.", "quantifier": "all multisets of stacks", "why_tests_cant": "all sequences", "anchors": ["internal/bpfsnoop/flamegraph.go"]}
{"id": "C28", "title": "LBR output keeps every branch record in order", "statement": "Grouping LBR branch entries for display neither drops, duplicates nor reorders entries.", "quantifier": "all lists of branch records", "why_tests_cant": "all lists", "anchors": ["internal/bpfsnoop/lbr_stack.go", "internal/bpfsnoop/bpfsnoop_lbr.go"]}
{"id": "C29", "title": "ENDBR detection is exact", "statement": "An instruction prologue is treated as ENDBR exactly when its first bytes are the endbr64/endbr32 (or poisoned) encoding.", "quantifier": "all byte strings", "why_tests_cant": "2^32 prefixes", "anchors": ["internal/bpfsnoop/bpf_endbr.go"]}
{"id": "C30", "title": "Direct call targets are computed correctly", "statement": "On x86-64 the callee address computed from a direct call instruction equals the architectural target for every call whose target lies in the kernel's part of the address space for code (the top 4 GiB, which holds kernel text, modules and BPF programs), and only for those; other instructions yield no callee.", "quantifier": "all instruction addresses and displacements", "why_tests_cant": "2^96 pairs", "anchors": ["internal/bpfsnoop/func_graph_parser.go: getCalleeIP", "internal/bpfsnoop/bpf_tail_call.go"]}
{"id": "C31", "title": "C strings from the kernel are cut at the first NUL", "statement": "Converting a fixed-size kernel buffer to a string yields the longest NUL-free prefix.", "quantifier": "all byte arrays", "why_tests_cant": "all arrays", "anchors": ["internal/strx: NullTerminated"]}
{"id": "C32", "title": "Rounding helpers return the least adequate value", "statement": "Mask returns the smallest 2^k-1 covering the value.", "quantifier": "all non-negative ints", "why_tests_cant": "2^63 inputs; the loop fails to end on a range tests do not reach", "anchors": ["internal/mathx: Mask"]}
{"id": "C33", "title": "In-memory reader honours the ReaderAt contract", "statement": "ReadAt returns the requested bytes, never reads past the end and signals EOF exactly when fewer bytes than asked are available.", "quantifier": "all buffers, offsets and lengths", "why_tests_cant": "all triples", "anchors": ["internal/bpfsnoop/bytes.go: bufferReaderAt"]}
{"id": "C34", "title": "The debug-symbol cache survives crashes and never serves wrong entries", "statement": "A cache lookup after any history of adds, saves and crashes returns either nothing or the value last added for that address, and saved entries are never lost by later failed saves.", "quantifier": "all histories of adds, saves, crashes", "why_tests_cant": "crash points", "anchors": ["internal/bpfsnoop/addr2line_cache.go"]}
{"id": "C35", "title": "Per-target flags do not leak into each other", "statement": "Every configuration option sets exactly its own bit in the configuration shared with BPF code and the BPF side reads the same bit for the same option.", "quantifier": "all combinations of options", "why_tests_cant": "2^n combinations", "anchors": ["internal/bpfsnoop/bpfsnoop_config.go", "bpf/bpfsnoop_cfg.h", "bpf/bpfsnoop_cfg_flags.h"]}
{"id": "C36", "title": "Program selectors are parsed unambiguously", "statement": "-p selectors (id:, tag:, name:, pinned:, pid: with optional function) parse to the program and function written and nothing else is accepted.", "quantifier": "all strings", "why_tests_cant": "all strings", "anchors": ["internal/bpfsnoop/bpf_prog_flag.go", "internal/bpfsnoop/flags_prog.go"]}
{"id": "C37", "title": "Tracing mode decides which probes fire", "statement": "Entry, exit and session modes attach exactly the probes the user asked for, for every combination of -m values and per-target prefixes.", "quantifier": "all mode combinations", "why_tests_cant": "combinations with per-target overrides", "anchors": ["internal/bpfsnoop/flags.go", "internal/bpfsnoop/flags_kfunc.go", "internal/bpfsnoop/bpf_tracing.go"]}
{"id": "C38", "title": "Function patterns select by first match", "statement": "A kernel function is traced iff some pattern matches it, with the flags of the first matching pattern.", "quantifier": "all pattern lists, all function names", "why_tests_cant": "all lists", "anchors": ["internal/bpfsnoop/kernel_functions_match.go"]}
{"id": "C39", "title": "Packet tuples are decoded as captured", "statement": "Addresses, ports, protocol and TCP flags printed for a packet are those in its headers.", "quantifier": "all headers", "why_tests_cant": "all header contents", "anchors": ["bpf/bpfsnoop_pkt_output.h", "internal/bpfsnoop/bpfsnoop_pkt.go"]}
{"id": "C40", "title": "Function-graph discovery is sound and terminates", "statement": "Every function added to the graph is reachable from a root by at most max-depth call edges; recursion in the call graph does not prevent termination.", "quantifier": "all call graphs (cyclic ones included), all schedules of the parser goroutines", "why_tests_cant": "schedules and graphs are unbounded", "anchors": ["internal/bpfsnoop/func_graph_parser.go"]}
{"id": "C41", "title": "BPF subprograms endangered by tail calls are skipped, and only those", "statement": "On a kernel whose trampolines lose the tail-call counter, a -p target that is not the entry function of its program is skipped exactly when the program's entry function initialises the tail-call counter; entry functions and all other functions are traced; whether the kernel has the problem is read off the trampoline itself.", "quantifier": "all programs (all byte strings of JITed code), all trampolines and their positions, all kernels", "why_tests_cant": "the layout of prologues and the position of trampolines vary by kernel and at run time", "anchors": ["internal/bpfsnoop/bpf_tail_call.go isTailcallReachable probeTailcallInfo", "internal/bpfsnoop/bpf_tracing_info.go addTracing"]}
{"id": "C42", "title": "Captured values are printed according to their type", "statement": "An argument or return value of integer, Boolean, enum, pointer, struct or union type is printed as the value its own bytes denote at that type: signed numbers with their sign, unsigned ones in both bases, pointers in hexadecimal with the function they point to, enumerators by name, every member of a struct from the member's own bytes; different integers never read the same, and printing never crashes.", "quantifier": "all types up to sixteen bytes with any nesting, all register contents", "why_tests_cant": "all values and all nested types; the registers hold arbitrary bits beyond the value", "anchors": ["internal/btfx/types.go ReprValue reprMember ReprFuncParam ReprFuncReturn"]}
{"id": "C43", "title": "Nested graph calls show their own cost", "statement": "In function-graph output the exit line of a nested call shows the time since that same call's entry and the time since the session started, and graph events of sessions opened by a graph target never crash the tool.", "quantifier": "all histories of entry/exit/graph records of any nesting depth", "why_tests_cant": "the number of interleavings and nestings is unbounded", "anchors": ["internal/bpfsnoop/bpfsnoop_graph.go:outputGraphEvent", "internal/bpfsnoop/bpfsnoop_sess.go"]}
{"id": "C44", "title": "Loading debug symbols in the background is safe", "statement": "Resolving a line number while vmlinux is still being loaded waits for the loader and then uses it; if loading fails an error is reported.", "quantifier": "all interleavings of the loader goroutine and the event loop, both outcomes of loading", "why_tests_cant": "depends on the schedule", "anchors": ["internal/bpfsnoop/addr2line.go:create", "internal/bpfsnoop/addr2line.go:wait"]}
{"id": "C45", "title": "KASLR translation is a bijection preserving distances", "statement": "Translating run-time kernel addresses to vmlinux addresses and back is the identity and preserves distances, for every KASLR offset in either direction.", "quantifier": "all 64-bit addresses and base pairs", "why_tests_cant": "2^192 inputs", "anchors": ["internal/bpfsnoop/kaslr.go"]}
{"id": "C46", "title": "Addresses without a symbol are still handled", "statement": "Symbolising an address that has line information but no kallsyms symbol never crashes.", "quantifier": "all addresses and symbol tables", "why_tests_cant": "rare combination of kallsyms and DWARF content", "anchors": ["internal/bpfsnoop/addr2line.go:get", "internal/bpfsnoop/lineinfo.go:getLineInfo"]}
{"id": "C47", "title": "The programs selected are the programs traced", "statement": "With -p, a program function is traced iff some selector selects it, with that selector's options.", "quantifier": "all lists of selectors, all sets of loaded programs", "why_tests_cant": "lists of selectors and loaded programs are unbounded", "anchors": ["internal/bpfsnoop/bpf_prog_flag.go:prepareProgInfos", "internal/bpfsnoop/bpf_prog_flag.go:newProgFlags", "internal/bpfsnoop/bpf_tracing_info.go:addTracing"]}
{"id": "C48", "title": "Kernel function selectors are parsed unambiguously", "statement": "A -k argument (prefixes, name pattern, optional parameter and type) denotes exactly the pattern and options written; anything else is rejected.", "quantifier": "all strings", "why_tests_cant": "all strings", "anchors": ["internal/bpfsnoop/flags_kfunc.go:parseKfuncFlag", "internal/bpfsnoop/filter_arg.go:getTypeDescFrom"]}
{"id": "C49", "title": "Events are decoded as they were captured", "statement": "For every attached program and every event it emits, the reader recovers the exact bytes captured for the arguments, the packet and --output-arg, never reads bytes the program did not write, and knows whether the event is an entry or an exit.", "quantifier": "all targets and option combinations, all captured bytes, all previous ring-buffer contents", "why_tests_cant": "the layout depends on the sizes chosen at attach time in a different file; option combinations and contents are unbounded", "anchors": ["bpf/bpfsnoop_event_output.h:output_event", "internal/bpfsnoop/bpfsnoop.go:Run", "internal/bpfsnoop/bpfsnoop_func.go:outputFuncInfo", "internal/bpfsnoop/bpf_tracing_graph.go:traceGraph"]}
{"id": "C50", "title": "The loaded program runs the filters that were asked for", "statement": "For every traced target, the program loaded into the kernel consults the first --filter-arg expression that mentions one of the target's parameters (or accepts if there is none) and, given --filter-pkt, the compiled packet filter on the first packet parameter (or accepts if there is none); an event is emitted exactly if bpfsnoop is ready, the process qualifies and both accept. A packet filter that cannot be compiled is an error.", "quantifier": "all compiled programs, lists of expressions, parameter lists, option combinations, processes", "why_tests_cant": "the program is assembled by rewriting the compiled object; every combination of options and parameters gives another program", "anchors": ["internal/bpfsnoop/filter_arg.go:inject", "internal/bpfsnoop/filter_pkt.go:filterSkb", "internal/bpfsnoop/bpf_tracing.go:injectPktFilter", "bpf/bpfsnoop.c:emit_bpfsnoop_event"]}
{"id": "C51", "title": "Rewriting leaves a loadable program with an intact entry", "statement": "Whatever is injected or removed, the program has no call of a removed function, and the entry function is unchanged except that calls of removed filters become 'accept' and calls of removed outputs become 'nothing'.", "quantifier": "all compiled programs, all jobs (options, parameters, injected code)", "why_tests_cant": "programs, injected code and combinations are unbounded", "anchors": ["internal/bpfsnoop/bpf_asm.go:injectInsns", "internal/bpfsnoop/bpf_asm.go:__clearSubprog", "internal/bpfsnoop/bpf_spec.go:TrimSpec", "internal/bpfsnoop/bpf_tracing_func_multi.go"]}
{"id": "C52", "title": "--output-arg: programs prepared at the same time can be loaded whatever the order", "statement": "bpfsnoop prepares the programs of all functions at the same time. Whatever the order in which this goes on, every expression of --output-arg of every program gets an exit label that no other expression of that program has, so that each program can be assembled, and every jump by which the code of an expression gives up leads to the end of that very expression, where the value is marked as missing.", "quantifier": "all numbers of programs, all accepted expressions, all schedules", "why_tests_cant": "labels collide only if one goroutine is interrupted within an increment while another gets two labels; a test sees one schedule", "anchors": ["internal/bpfsnoop/output_arg.go:genExitLabel", "internal/bpfsnoop/output_arg.go:matchParams", "internal/bpfsnoop/output_arg.go:compile", "internal/bpfsnoop/output_arg.go:genInsns", "internal/bpfsnoop/bpf_tracing.go:NewBPFTracing"]}
{"id": "C53", "title": "Contradictory options are refused, and only those", "statement": "bpfsnoop accepts its options exactly when the modes in force (given with -m, or entry if every -k selector is (m), else exit) are one or two of entry and exit, no exit-only (m) run filters or prints arguments or packets, the graph depth is between 1 and 500, no function-graph selector carries (m), and at most one --output-arg starts with hist( and at most one with tdigest(; every -k selector then goes to exactly one of kprobe.multi and ordinary tracing, in order.", "quantifier": "all combinations of options and all lists of selectors and expressions", "why_tests_cant": "the options combine without bound and selectors and expressions are arbitrary texts", "anchors": ["internal/bpfsnoop/flags.go:ParseFlags", "internal/bpfsnoop/flags.go:checkMode", "internal/bpfsnoop/flags.go:setDefaultModes"]}
{"id": "C54", "title": "Reading kernel memory returns the bytes at the address", "statement": "A read of n bytes of readable kernel memory returns exactly the n bytes at that address, whatever was read before; sizes above the limit are refused.", "quantifier": "all memory contents, addresses, sizes, and histories of reads", "why_tests_cant": "the buffer is shared by all reads and sizes are rounded and masked; the result depends on the history", "anchors": ["internal/bpfsnoop/bpf_read_kernel.go:readKernel", "bpf/read.c:read"]}
{"id": "C55", "title": "The disassembly shows the bytes of the function", "statement": "--disasm of a kernel function shows, in order and without gap or overlap, exactly the bytes of the function up to the next symbol, except trailing padding and what follows a failure of the disassembler; text that is no address is taken as a name.", "quantifier": "all symbol tables, memory contents, decoders, names and sizes", "why_tests_cant": "symbol tables, code and decoders are unbounded", "anchors": ["internal/bpfsnoop/disasm.go:dumpKfunc", "internal/bpfsnoop/bpf_disasm.go", "internal/bpfsnoop/dump.go"]}
{"id": "C56", "title": "Instruction tracing attaches to the function's instructions", "statement": "Tracing the instructions of a function attaches to exactly its instructions from the fifth on that are not a one-byte ret, each at its own address within the function and recorded with its offset and bytes, and no address belongs to two functions.", "quantifier": "all symbol tables, memory contents and decoders", "why_tests_cant": "functions, their code and their neighbours are unbounded", "anchors": ["internal/bpfsnoop/func_insn.go:parseFuncInsns", "internal/bpfsnoop/bpf_tracing_insn.go"]}
{"id": "C57", "title": "An address is shown with the line of its code", "statement": "An address inside a function of a loaded BPF program is shown with that function's name, the distance from its start, and the file and line of the last line record of that function not above the address; a kernel address is shown with the symbol that covers it and the line debug information gives; file paths lose exactly the build directory, or their leading dots and slash.", "quantifier": "all programs, line tables, symbol tables, debug information, addresses and paths", "why_tests_cant": "tables, addresses and paths are unbounded and the search is a hand-written binary search", "anchors": ["internal/bpfsnoop/lineinfo.go:getLineInfo", "internal/bpfsnoop/bpf_prog_info.go:bpfProgLineInfo.get", "internal/bpfsnoop/bpf_progs.go:bpfProgs.get"]}
{"id": "C58", "title": "The table of BPF functions is complete", "statement": "After start every function of every loaded BPF program is in the table with its name, its address range, exactly its line records, and whether and how it is traced; a program whose tables do not fit together is reported as an error.", "quantifier": "all sets of loaded programs with arbitrary tables and all sets of traced functions", "why_tests_cant": "programs, functions and line records are unbounded", "anchors": ["internal/bpfsnoop/bpf_prog_info.go:newBPFProgInfo", "internal/bpfsnoop/bpf_progs.go:parseProgs", "internal/bpfsnoop/bpf_progs.go:AddProgs"]}
{"id": "C59", "title": "The stack under an event is the stack of that event", "statement": "With (s) the frames shown under an event are the frames of the stack at that event outside the tracing machinery, in order; no event is shown without its stack or with another event's stack.", "quantifier": "all sequences of events, of stacks, of dropped events, all hash functions and map sizes", "why_tests_cant": "events are queued, dropped and shown in every interleaving and stacks collide", "anchors": ["internal/bpfsnoop/bpfsnoop_func_stack.go:fnStack.get", "bpf/bpfsnoop_stack.h", "bpf/bpfsnoop_event.h"]}
{"id": "C60", "title": "The branch records under an event are those of that event", "statement": "With (l) the branch records shown under an event are exactly the records the CPU reported when that event's program ran, in order and none left from an earlier event; events are shown in the order they were sent; no event is shown without its records or with another event's.", "quantifier": "all interleavings of programs on all CPUs, all records, all session ids, all dropped events", "why_tests_cant": "programs interrupt each other, share a buffer per CPU and a bounded map, in every interleaving", "anchors": ["bpf/bpfsnoop_lbr.h", "bpf/bpfsnoop.c", "internal/bpfsnoop/lbr_stack.go", "internal/bpfsnoop/bpfsnoop_lbr.go", "internal/bpfsnoop/bpf_tracing_info.go"]}
{"id": "C61", "title": "The tracepoints found are those of the running kernel", "statement": "Every tracepoint of the kernel and of every loaded module with BTF is found with its own name, number of arguments and prototype, and none else; a tracepoint is traced exactly if an option of -t matches it and its arguments can be passed; a name in the kernel is not hidden by one in a module; every selected tracepoint gets its own id and no function loses its entry.", "quantifier": "all tables of tracepoints of any length, all lists of modules, symbol tables, BTF and -t options", "why_tests_cant": "tables are read in pieces of 256 and merged in every order of map iteration", "anchors": ["internal/bpfsnoop/kernel_tracepoints.go", "internal/bpfsnoop/bpf_tracepoints.go", "internal/bpfsnoop/bpf_tracepoints_module.go", "bpf/tracepoint.c", "bpf/tracepoint_module.c"]}
{"id": "C62", "title": "Kernel functions are searched in the kernel and in the modules asked for", "statement": "The kernel functions traced with -k are exactly those matched by an option that are in the BTF of the kernel, of every module given with --kfunc-kmods (all with --kfunc-all-kmods) and of every module an option names, by a symbol of it or by beginning with its name; each BTF is read once, the kernel's first; a BTF that cannot be read is an error; the search ends without a crash. A function shown with --show-func-proto is said to be traceable exactly if it is in the first BTF having its name and can be traced.", "quantifier": "all directories of BTF files and their contents, all options, all lists of modules, all symbol tables", "why_tests_cant": "modules, symbols and options combine in every order and number", "anchors": ["internal/bpfsnoop/kernel_btf.go:iterateKernelBtfs", "internal/bpfsnoop/kernel_functions.go:FindKernelFuncs,prepareKmods,inferenceKfuncKmods", "internal/bpfsnoop/func_proto.go:ShowFuncProto", "internal/bpfsnoop/func_graph_proto.go:detectKfuncTraceable,findBtfOfKfunc", "internal/bpfsnoop/slice.go"]}
{"id": "C63", "title": "Exactly the functions that can be hooked are traced, and their calls are recognised", "statement": "Of the kernel functions selected exactly those are kept whose code has the tracer's nop, call or jump at its place, however many functions there are; where functions are hooked by jumps the trampoline found is the target of the jump; in a stack an address is taken for a call of a function of the graph exactly if it is the return address of the tracer's call in that function, or of a call in its trampoline; so the depth shown with a call is the number of traced calls from the root down.", "quantifier": "all kernel memory, all sets of functions of any size, all addresses and distances, all stacks", "why_tests_cant": "depends on the bytes of every function of every kernel", "anchors": ["bpf/traceable.c", "internal/bpfsnoop/bpf_kfuncs.go:detectTraceables", "internal/bpfsnoop/bpf_feature.go:haveTrampolineJmpMode", "internal/bpfsnoop/bpf_tracing_graph.go:populateFgraphTraceeIPs,probeTrampAddrs,extractTrampolineIPs,populateFgraphTrampolineIPs", "bpf/bpfsnoop_fgraph.c:get_fgraph_func_ip"]}
{"id": "C64", "title": "The layout shown of a type is its layout", "statement": "--show-type-proto shows for a struct or union each member that can be reached through structs and unions by value exactly once, in the order of declaration, with its declaration, its offset in bytes from the start of the whole type, and its size or its bit and number of bits; for an enum each name with its value; types are shown in the order in which they were asked for; a name stands for the type of the first BTF that has it; no type whose parts have names makes the tool fail.", "quantifier": "all types of any depth and number of members, all offsets, all sets of BTF", "why_tests_cant": "the types are those of every kernel and module", "anchors": ["internal/bpfsnoop/type_proto.go", "internal/btfx/types.go:Repr"]}
{"id": "C65", "title": "The prototype shown of a function is its prototype", "statement": "--show-func-proto shows the text of the result, the name and the parameters in order with the texts of their types, with --list-func-params each after its number; the name, the result, and the names and types of all parameters can be read back from the text without ambiguity.", "quantifier": "all functions, any number of parameters, all types", "why_tests_cant": "the functions are those of every kernel, module and BPF program", "anchors": ["internal/bpfsnoop/func_proto.go:showFuncProto", "internal/btfx/types.go:Repr"]}
{"id": "C66", "title": "The call tree shown is the tree of calls", "statement": "--show-func-graph-proto prints for each function given its prototype and below it, indented by two dots for each call, exactly the chains of direct calls of at most the depth asked for, in the order of the calls, each with the prototype of the function called and the mark [traceable] exactly if it can be hooked; that parts of the tree are remembered and printed again does not show.", "quantifier": "all functions, all code (also recursive), all depths, any number of functions given", "why_tests_cant": "the trees are those of every kernel; sharing and recursion make them arbitrarily large", "anchors": ["internal/bpfsnoop/func_graph_proto.go"]}
{"id": "C67", "title": "--read shows the value of the expression", "statement": "--read EXPR shows what EXPR is worth in kernel memory at the first call that bpfsnoop's own thread makes of the probed function while the reading program is attached, whatever calls other threads make before, at the same time or later; [NULL] where a NULL pointer would have to be followed; if the thread makes no call nothing is shown.", "quantifier": "all expressions, all memories, all histories of calls by all threads", "why_tests_cant": "calls of other threads interleave arbitrarily; expressions are arbitrary", "anchors": ["internal/bpfsnoop/bpf_read_data.go", "bpf/read.c:read_data"]}
{"id": "C68", "title": "Recording starts when everything is attached and nothing is left behind", "statement": "Calls are recorded only while every target that could be attached is attached, none failed, and the events are read; a run that ends with status 0, however it ends, leaves recording off, no probe attached and everything closed; a run that fails before events are read never turned recording on; targets are attached with LBR only on kernels with branch snapshots and while the LBR events are open; a run goes on exactly if the features it needs are there; of disassembly and prototypes only one is shown and nothing is attached.", "quantifier": "all option combinations, all outcomes of every step, all fates of all targets, all orders of attaching and detaching, signals and ends of the run, all moments", "why_tests_cant": "any of some thirty-five steps may fail, attachments are concurrent and the number of targets is unbounded", "anchors": ["main.go:main", "internal/bpfsnoop/bpf_feature.go:DetectBPFFeatures,btfEnumValue", "internal/bpfsnoop/bpf_tracing.go:NewBPFTracing,Close", "bpf/feature.c", "internal/assert"]}
{"id": "C69", "title": "The line of an event tells what happened", "statement": "Times and durations are printed to the nanosecond and can be read back exactly; two events with the same first line have the same direction, function name, arguments text, return value text, CPU, process id, process name, duration and time; likewise graph lines and instruction lines; an event whose process name has no newline takes one line; the names of BPF programs, tracepoints and kernel functions are never confused.", "quantifier": "all events, process names, CPUs, process ids, durations below 2^32 ns, times of day, functions and symbol tables", "why_tests_cant": "unbounded numbers and arbitrary 16-byte process names, including ones that imitate parts of the line", "anchors": ["internal/bpfsnoop/bpfsnoop_func.go:getFuncInfo,outputFuncInfo", "internal/bpfsnoop/bpfsnoop.go:outputFuncInfo,Run", "internal/bpfsnoop/bpfsnoop_graph.go", "internal/bpfsnoop/bpfsnoop_insn.go", "internal/strx/string.go:NullTerminated"]}
{"id": "C70", "title": "The listing of a BPF program is complete and exact", "statement": "`--disasm` of a BPF program shows exactly the functions asked for, in order; of each function every instruction once and in order, with its address, offset and bytes, together exactly the function's machine code; before an instruction the source line that begins there; after a direct jump or call what lies at its target. If what the kernel reports fits together and the code can be decoded, there is a listing.", "quantifier": "all programs (any number of functions, any code and line records), all selections of functions, all disassemblers", "why_tests_cant": "unbounded programs and arbitrary machine code", "anchors": ["internal/bpfsnoop/dump.go:DumpProg,printInsnInfo", "internal/bpfsnoop/bpf_tracing_info.go:addTracing", "internal/bpfsnoop/lineinfo.go:getLineInfo"]}
{"id": "C71", "title": "Debug information comes from the right file", "statement": "Without --kernel-vmlinux the first existing one of seven usual places is used as vmlinux; with it only that directory is searched; bpfsnoop gives up exactly if that directory has no vmlinux. The debug file of a module is the first in the directory tree (in the order of paths) whose name is the module's with .ko or .ko.zst, hyphens counting as underscores; there is none exactly if the whole tree was read and has none. Once known, the answer for a module never changes. Code in .text of a module is looked up at its place in the file.", "quantifier": "all file systems, all directory trees, all modules, all histories of look-ups and of changes of the files, all addresses", "why_tests_cant": "unbounded directory trees and histories", "anchors": ["internal/bpfsnoop/vmlinux.go:FindVmlinux", "internal/bpfsnoop/flags.go:ParseFlags", "internal/bpfsnoop/fs.go:fileExists", "internal/bpfsnoop/addr2line.go:findKernelModuleFileUnderDir,findKernelModuleFile,addKmod,getMod,get", "internal/bpfsnoop/kaslr.go:effectiveAddr"]}
{"id": "C72", "title": "Expressions apply to the functions whose parameters they mention", "statement": "A --filter-arg or --output-arg expression is about a function exactly if a variable in it (for an output function: in its first argument) is the name of a parameter of the function. A function gets the first filter about it and all outputs about it, in the order given; one that no expression is about gets none. The code of an expression depends only on the places and types of the parameters it mentions. An expression is refused at the start exactly if it has no variable.", "quantifier": "all lists of expressions, all functions and parameter lists, all BTF, all read modes", "why_tests_cant": "unbounded expressions, lists and parameter lists", "anchors": ["internal/cc/variable.go:ExtractVarNames", "internal/bpfsnoop/filter_arg.go:prepareFuncArgument,prepareFuncArguments,matchParams,inject", "internal/bpfsnoop/output_arg.go:prepareArgOutput,prepareFuncArgOutput,match,matchParams"]}
{"id": "C73", "title": "A parameter name in an expression denotes that argument of the traced call", "statement": "In a --filter-arg or --output-arg expression the name of a parameter stands for the argument of that name in the call being traced, whichever way the function is traced: for a function or program traced by itself, and for each of the functions traced together with (m). In a BPF program, context parameters have the kernel's own types (sk_buff, xdp_buff).", "quantifier": "all functions and calls, all expressions, all lists of functions traced together, all registers and contexts", "why_tests_cant": "unbounded parameter lists, argument values, expressions and groups of functions", "anchors": ["bpf/bpfsnoop.c:emit_bpfsnoop_event", "bpf/bpfsnoop_kmulti.c:read_args_from_ctx", "internal/bpfsnoop/bpf_tracing_func_multi.go:traceFuncsMulti,traceKfuncMultiMode,validateKmultiArgOutput,findMatchedArgIndex", "internal/bpfsnoop/bpf_tracing_prog.go:correctArgType,correctArgTypeInParams", "internal/bpfsnoop/bpf_tracing_info.go:getFuncParams"]}
{"id": "C74", "title": "The functions of a call graph are those the options select", "statement": "With --output-fgraph or (g), the graph consists of the functions reached from the functions and programs whose graph was asked for (and from those of --fgraph-extra, at depth 1) by at most --fgraph-max-depth calls through functions that are in the graph: kernel functions that can be attached to, that no --fgraph-exclude pattern matches and that an --fgraph-include pattern matches if any is given, and BPF functions that can be traced. Functions bpfsnoop's own programs use, and those they call, are never in it.", "quantifier": "all kernels (symbols, type information of vmlinux and modules, calls), all patterns and options, all schedules of the exploring goroutines", "why_tests_cant": "unbounded call graphs, type information, pattern lists and interleavings", "anchors": ["internal/bpfsnoop/func_graph.go:FindGraphFuncs,fgraphDenyList", "internal/bpfsnoop/func_graph_parser.go:isExcludedKfunc,checkIncludedKfunc,add", "internal/bpfsnoop/kernel_btf.go:iterateKernelBtfs", "internal/bpfsnoop/kernel_functions.go:matchKernelFunc,checkKfuncTraceable"]}
{"id": "C75", "title": "Output functions print the captured bytes in the notation they name", "statement": "An --output-arg expression with an output function (eth, ip4, ip6, port, u8..be64, buf, hex, slice, and their pairs) is shown in the notation of that function, and the text stands for exactly the captured bytes: addresses in their usual notation, ports in network byte order, integers in the byte order and signedness of the name, byte dumps byte by byte; two events that show the same text captured the same bytes. The line under an event consists of the texts of the expressions in order, separated by commas, values that only feed a histogram or t-digest showing nothing.", "quantifier": "all captured bytes, all output functions, all lists of expressions", "why_tests_cant": "the claim ranges over all byte strings (2^128 IPv6 addresses) and all orders of expressions; zero runs, sign bits and separators are easily missed by samples", "anchors": ["internal/bpfsnoop/bpfsnoop_arg.go:dumpOutputArgBuf,__outputFuncArgAttrs,outputFuncArgAttrs", "internal/cc/expr_func.go:AddrTypeEth,Port,IntTypeU8"]}
{"id": "C76", "title": "Actions returned by XDP and TC programs are shown by name", "statement": "When an XDP or TC program is traced at its exit, the return value shown is the name of the action (XDP_PASS, TC_ACT_UNSPEC, ..) if it is one, and the number otherwise.", "quantifier": "all return values", "why_tests_cant": "return values range over all 32-bit numbers, negative ones included", "anchors": ["internal/bpfsnoop/bpfsnoop_func_args.go:xdpAction.Action,tcAction.Action,outputFnRetval"]}
{"id": "C77", "title": "Branch lists and call stacks can be read back, aligned, with and without colours", "statement": "With --output-lbr and --output-stack, the text under an event has one line per branch or frame; each line states function, offset in it and source line (and the address, with -v) of each place unambiguously, the first branch of each group carries the number of the group counted down from the number of branches the processor records, the arrows of all branches are in one column, and colours change nothing of the text.", "quantifier": "all lists of branches and frames, all names without blanks, all offsets, addresses and source lines, verbose or not, coloured or not", "why_tests_cant": "the widths of columns depend on all entries of the list, and names, numbers and their lengths are unbounded; misreadings show up only for particular combinations", "anchors": ["internal/bpfsnoop/lbr_stack.go:updateInfo,format,addEntry,outputRecord,getLeftFmt,getRightFmt,output", "internal/bpfsnoop/bpfsnoop_func_stack.go:get,output"]}
{"id": "C78", "title": "The listing of prototypes is complete, ordered and marked right", "statement": "--show-func-proto prints one section each for BPF programs, kernel functions and tracepoints asked for, with a title, the right total, and the prototype of every selected function exactly once in the order of names; a kernel function has the mark [traceable] exactly if the same options would trace it; the listing can be read back into sections, prototypes and marks; whatever can be found is shown without a crash.", "quantifier": "all sets of programs, functions and tracepoints, every order of map iteration, all options, all BTF", "why_tests_cant": "the sets are those of every kernel, maps are walked in random order, and the mark depends on lists, modes, symbols and code of each function", "anchors": ["internal/bpfsnoop/func_proto.go:ShowFuncProto,printKfuncProto,printFuncProto", "internal/bpfsnoop/func_graph_proto.go:detectKfuncTraceable"]}
{"id": "C79", "title": "--fgraph prints under each recorded call the calls made during it", "statement": "With --fgraph, when a recorded call of a root function ends, bpfsnoop prints its two lines and between them, in order, one line for the beginning and one for the end of every call of a function of its graph made during it by the same task and not deeper than the limit, each with its depth, its own duration, the time since the root began and its captured bytes; calls of other tasks, of other roots, and deeper calls do not appear; nothing else is printed and nothing crashes.", "quantifier": "all call trees of any number of tasks, all schedules of the tasks, all filter verdicts and session ids, all stack contents that tell the open calls", "why_tests_cant": "the nesting and interleaving of calls, recursion, filters rejecting some calls, and the join of kernel maps, ring buffer and user-space tables are unbounded", "anchors": ["bpf/bpfsnoop_fgraph.c:bpfsnoop_fgraph,try_get_session", "bpf/bpfsnoop.c:emit_bpfsnoop_event", "bpf/bpfsnoop_sess.h:add_session,get_session,get_and_del_session", "internal/bpfsnoop/bpfsnoop.go:Run", "internal/bpfsnoop/bpfsnoop_graph.go:outputGraphEvent", "internal/bpfsnoop/bpfsnoop_sess.go:Sessions"]}
{"id": "C80", "title": "The lists of the running kernel are read as it wrote them", "statement": "For every set of symbols, list of attachable functions and set of open files that the kernel shows in its own format, bpfsnoop reads them without loss: an address is found by the symbol that has it, the special symbols and the modules are those listed, exactly the functions the kernel lists (and not idle, RCU or ftrace's own) are attached to by (m), exactly the programs a process holds are traced by pid, and the number of branch records is the one in the kernel's memory.", "quantifier": "all lists of symbols, functions, modules and open files in the kernel's format; all contents of the kernel's memory", "why_tests_cant": "the files of /proc and tracefs are of any length and content, and differ on every machine", "anchors": ["internal/bpfsnoop/kallsyms.go:NewKallsyms", "internal/bpfsnoop/bpf_tracing_func_multi.go:loadAvailableFilterFunctions,filterKprobeMultiSymbols", "internal/bpfsnoop/bpf_prog_flag.go:prepareProgInfoByPid", "internal/bpfsnoop/lbr_nr.go:ReadLbrNr"]}
{"id": "C81", "title": "What is written at the end tells what was sampled", "statement": "For every sequence of samples, the histogram printed at the end tells the number of samples, and for each range how many samples lie in it, with bars in proportion and columns aligned; every sample lies in a printed range. The t-digest printed tells every value with all the samples its centroids stand for. The flame graph file lists exactly the stacks seen, each once, with the number of times it was seen.", "quantifier": "all sequences of samples, all sets of centroids, all sequences of stacks", "why_tests_cant": "sequences and values are unbounded; the claim is about reading the text back, for every mixture of number widths and names", "anchors": ["internal/bpfsnoop/bpfsnoop_arg_histogram.go:render,log2hist,printStars", "internal/bpfsnoop/bpfsnoop_arg_tdigest.go:render,tdigest2hist", "internal/bpfsnoop/flamegraph.go:generateFoldedStacks,Save"]}
{"id": "C82", "title": "The line of a call shows its arguments and return value", "statement": "For every function and every call of it, the text printed between the function's name and the rest of the line lists the call's arguments in their order, comma separated, each as (type)name=value, the first string parameter as the string it points to and a pointer to a number together with that number; at an exit the return value follows, as the name of the action for XDP and TC programs. With (m) as many arguments as registers are shown and \"...\" stands for the rest.", "quantifier": "all prototypes, all argument words, all memory contents, entry and exit, plain and (m)", "why_tests_cant": "prototypes, argument values and memory are unbounded; the claim joins generated BPF code, buffer layout and printer", "anchors": ["internal/bpfsnoop/bpfsnoop_func_args.go:outputFnArgs,outputFnRetval,outputFnArgsKmulti,outputFnRetvalKmulti,findSymbolHelper", "internal/bpfsnoop/bpfsnoop_func.go:outputFuncInfo,outputEmptyArgs,outputFuncArgsKmulti"]}
{"id": "C83", "title": "What is printed is exactly the calls asked for, in order, each with its own arguments", "statement": "For every history of calls and returns of the traced functions, programs and tracepoints, some of them traced with (m), bpfsnoop prints one block for each moment the user asked for (right process, right end of the call, filter expression true of the arguments, packet filter true of the packet) and none for any other, in the order in which they happened; each block shows the function's name, the arguments of that call, at a return its result, and the CPU, process and comm of that moment. For functions traced at both ends with (b) the block holds the call and the return of the same call, with the time between them, for exactly the wanted calls that took at least --duration-threshold. For functions traced with (i) that block shows, between the call and the return, one line for each instruction executed in that call, in order, and an instruction executed outside a wanted call shows nothing. For functions traced with (g) it also shows the calls and returns of the functions of the graph made during that call, each in the innermost wanted call around it, down to the greatest depth, with arguments, result, depth and times of that very call; outside of wanted calls they show nothing. With --limit-events n the first n of these blocks are printed.", "quantifier": "all histories (any length, nesting and interleaving of tasks and functions, mixing functions traced at one end, at both ends and with (m)), all prototypes and filters in the fragments of C01, C17 and C42, all argument values and memory contents, all option combinations, histories of instructions executed and functions of graphs called in any task, with and without session programs of either kind", "why_tests_cant": "histories, prototypes, filters and values are unbounded; the claim joins the compiled filter, the generated argument code, the record layout, the event loop and the printer", "anchors": ["bpf/bpfsnoop.c:emit_bpfsnoop_event", "bpf/bpfsnoop_event_output.h:output_event", "internal/bpfsnoop/bpfsnoop.go:Run", "internal/bpfsnoop/filter_arg.go:inject", "internal/bpfsnoop/bpfsnoop_func.go:outputFuncInfo", "internal/bpfsnoop/bpf_tracing.go:traceFuncs", "internal/bpfsnoop/bpf_tracing.go:traceKfuncMulti", "bpf/bpfsnoop_fgraph.c:bpfsnoop_fgraph", "internal/bpfsnoop/bpfsnoop_graph.go:outputGraphEvent"]}
{"id": "C84", "title": "(i) prints under each recorded call exactly the instructions it executed", "statement": "With (i), for every recorded call of a traced function bpfsnoop prints, when the call returns, the line of its entry, then one line for every probed instruction that this call itself executed, in the order of execution, with the instruction's address, offset, bytes and text and the time since the beginning of the call, then the line of its return; instructions of other calls, other tasks or callees are never among them. The probed instructions are those of the functions with (i) from the fifth on that are not a one-byte ret, each once.", "quantifier": "all tasks, all their calls and executed instructions (any depth and length, recursion included), all schedules, all functions and code bytes", "why_tests_cant": "the schedules and call trees are unbounded and the sessions are keyed by task and function, so interleavings and recursion decide which call an instruction is shown under", "anchors": ["bpf/bpfsnoop_insn.c:bpfsnoop_insn", "internal/bpfsnoop/func_insn.go:NewFuncInsns", "internal/bpfsnoop/bpf_tracing_insn.go:traceInsn", "internal/bpfsnoop/bpfsnoop_insn.go:outputInsnEvent", "internal/bpfsnoop/dump.go:printInsnInfo", "internal/bpfsnoop/bpfsnoop.go:Run"]}
{"id": "C85", "title": "What is attached is what the options ask for and the kernel accepts", "statement": "From the command line to the attached programs: if bpfsnoop starts tracing, every call of a kernel function that a -k option asks for (the first that matches it decides), that is in the BTF searched, has an address of its own, can be traced and has room for the tracer's call reaches exactly one program at its entry if the user asks for entries and exactly one at its exit if for exits, provided the kernel accepts its programs; nothing runs at any other function. The same holds for tracepoints, BPF programs and, option by option, for (m). Programs the kernel refuses for a known harmless reason are skipped; any other refusal, or nothing attached at all, ends the run with an error. If the options are understood and BTF and available_filter_functions can be read, the start gets as far as the kernel's answers.", "quantifier": "all kernels (BTF, symbols, code bytes, tracepoints), options, answers of the kernel to every program, orders of maps and goroutines, random ids", "why_tests_cant": "the kernel, its answers and the order of maps and goroutines are unbounded choices, and the claim joins the search, the detection, the merge and the attaching, each with its own tests", "anchors": ["main.go:main", "internal/bpfsnoop/bpf_tracing.go:NewBPFTracing", "internal/bpfsnoop/bpf_tracing_func.go:traceFunc", "internal/bpfsnoop/bpf_tracing_func.go:ignoreFuncTraceErr", "internal/bpfsnoop/bpf_tracing_func_multi.go:traceKfuncsMulti", "internal/bpfsnoop/bpf_tracing_prog.go:traceProg", "internal/bpfsnoop/kernel_functions_multi.go:FindKernelFuncsMulti", "internal/bpfsnoop/kernel_tracepoints.go:MergeTracepointsToKfuncs"]}
{"id": "C86", "title": "Calls open at the same time have different session ids", "statement": "The id that ties the entry, the exit, the call graph and the instructions of a call together: calls of traced functions open at the same time in one task have pairwise different ids, after every history of calls and returns, whatever the random numbers and whatever else is in memory. Calls of different tasks share an id only if the random numbers agree and the frames of their callers agree in the low 32 bits.", "quantifier": "all histories of calls and returns of a task, stack contents, random numbers, numbers of arguments, entry/exit modes", "why_tests_cant": "random numbers, stack addresses and histories are unbounded, and a collision shows up only when a pair of them meets", "anchors": ["bpf/bpfsnoop.c:get_tracee_caller_fp", "bpf/bpfsnoop.c:gen_session_id", "bpf/bpfsnoop_stack.h:get_tramp_fp", "bpf/bpfsnoop_stack.h:detect_tramp_fp_offset", "bpf/bpfsnoop_kmulti.c:gen_session_id"]}
{"id": "C87", "title": "Reading the BPF programs in the background while tracing starts is safe", "statement": "bpfsnoop reads the functions of the BPF programs in background goroutines while it attaches to them and adds its own programs to the same table. Whatever the schedule: no execution gets stuck and every one ends; goroutines that add programs exclude each other; if bpfsnoop does not crash, every traced function is in the table when events are shown, and once the programs have been read the table holds exactly the functions of all accepted programs and of bpfsnoop's own, each with the options it is traced with; refused information is reported. If the tracers wait for the programs to be read, there is no crash.", "quantifier": "all interleavings of the goroutines, all programs and their functions, traced functions, orders of map iteration", "why_tests_cant": "the schedules are unbounded and the bad ones rare; the race detector sees only the schedule it ran", "anchors": ["internal/bpfsnoop/bpf_prog.go:NewBPFProgs", "internal/bpfsnoop/bpf_prog.go:parseProgs", "internal/bpfsnoop/bpf_prog.go:addProg", "internal/bpfsnoop/bpf_prog.go:AddProgs", "internal/bpfsnoop/bpf_tracing_prog.go:traceProg", "main.go:main"]}
{"id": "C88", "title": "Branch recording is set up on every CPU with exactly the branch types asked for", "statement": "With LBR output bpfsnoop opens, for every possible CPU in order, one perf event on CPU cycles that records branches in the kernel of exactly the types given with --filter-br (their order and repetitions do not matter). An unknown type is refused before anything is opened. If the kernel refuses an event, bpfsnoop stops with the error of the first CPU refused (LBR is not supported for ENOENT and EOPNOTSUPP), and no event stays open. On success closing leaves nothing open.", "quantifier": "all lists of branch types, numbers of CPUs, answers of the kernel", "why_tests_cant": "the hardware of a test machine has one number of CPUs, all online, and either supports LBR or not", "anchors": ["internal/bpfsnoop/lbr_perf_event.go:OpenLbrPerfEvent", "internal/bpfsnoop/lbr_perf_event.go:Close", "internal/bpfsnoop/lbr_perf_event_linux.go:openLbrPerfEvent", "main.go:main"]}
{"id": "C89", "title": "From the command line to the lines: what is printed is what the options ask for", "statement": "Whatever happens in the kernel after bpfsnoop has started, what it prints is, in order, one block for each call or return asked for (for functions traced at both ends: one block for each call that passed the filter and took long enough) of exactly the kernel functions, tracepoints and BPF programs that the options select, with the arguments and result of that call; nothing is printed for any other function. It does not depend on the order in which the programs were attached.", "quantifier": "all command lines, kernels, orders of attaching, histories of calls of all functions of the kernel", "why_tests_cant": "a test has one kernel, one command line and one history; the order in which goroutines attach programs and maps are iterated differs from run to run", "anchors": ["main.go:main", "internal/bpfsnoop/bpf_tracing.go:NewBPFTracing", "internal/bpfsnoop/bpfsnoop.go:Run", "bpf/bpfsnoop.c:emit_bpfsnoop_event", "bpf/bpfsnoop_kmulti.c:emit_bpfsnoop_kmulti_event"]}
{"id": "C90", "title": "An accepted expression becomes a program the kernel accepts: nothing is read before it is written", "statement": "On every path through the program of an accepted filter, whatever the values compared, every register and every stack slot an instruction reads has been written before, a register forgotten by a helper call is not read again, the frame pointer is never written and no path leaves the program, as the kernel's verifier demands before it loads it; so the answer depends on nothing but the arguments and the memory. The same holds for the code of a shown expression up to the register of its result.", "quantifier": "all accepted filters and shown expressions (any nesting, all operators), all BTF, all three ways of reading memory, all paths through the generated program including those ended by a NULL pointer, all contents of registers and stack at the start", "why_tests_cant": "the tests compare the instructions of single operators with expected ones; which registers are in use, which path is taken and where the exit label ends up depends on the whole enclosing expression, and no test loads the result", "anchors": ["internal/cc/evaluate.go", "internal/cc/materialize.go: materialize", "internal/cc/bpf_probe_read.go", "internal/cc/bpf_core_read.go", "internal/cc/bpf_direct_read.go", "internal/cc/expr.go: CompileFilterExpr, CompileEvalExpr, pushUsedCallerSavedRegsN, popUsedCallerSavedRegsN", "internal/cc/register.go"]}
{"id": "C91", "title": "The maps shared with the kernel are as large as they are used", "statement": "On every machine the programs are accepted and every CPU records branches in a buffer of its own, inside the map; the CPU shown for an event is the one it happened on; a stack is stored and read whole, with as many addresses as the kernel allows; and of the stack taken for a function of a graph exactly the addresses the kernel wrote are looked at.", "quantifier": "all numbers of CPUs, all values of kernel.perf_event_max_stack, also changing while bpfsnoop runs, all CPU numbers a program may see, all answers of bpf_get_stack", "why_tests_cant": "a test machine has one number of CPUs and one value of the sysctl, usually a power of two and the default; no unit test creates maps", "anchors": ["internal/bpfsnoop/bpfsnoop_maps.go", "internal/bpfsnoop/kernel_sysctl.go: readKernelPerfEventMaxStack", "internal/bpfsnoop/bpf_tracing_graph.go: setupFgraphStack", "internal/bpfsnoop/bpfsnoop_func_stack.go: newFnStack, get", "main.go: CPU_MASK", "bpf/bpfsnoop.c: emit_bpfsnoop_event", "bpf/bpfsnoop_fgraph.c: try_get_session", "bpf/bpfsnoop_lbr.h"]}
{"id": "C92", "title": "Sessions survive programs that interrupt one another", "statement": "bpfsnoop's programs run on all CPUs at once and interrupt each other in the middle of recording the start or the end of a call. Whatever the interruptions, every recorded call keeps its own session: the events of its end, of its instructions and of its function graph carry the session id of its start, calls of other tasks and functions do not disturb it, and the calls of a task to a function are recorded in their order.", "quantifier": "all interleavings of single memory accesses of any number of programs on any number of CPUs, all tasks, functions and session ids, all previous contents of the memory, all reuses of freed map elements", "why_tests_cant": "the windows are a few instructions wide and depend on interrupts and preemption", "anchors": ["bpf/bpfsnoop_sess.h: add_session, get_session, get_and_del_session", "bpf/bpfsnoop_session.h", "bpf/bpfsnoop_insn.c", "bpf/bpfsnoop_fgraph.c: try_get_session"]}
{"id": "C93", "title": "Functions the kernel refuses do not end the run", "statement": "The kernel refuses some functions: nothing can be attached to those of its list btf_id_deny, and nothing to the exit of those of its list noreturn_deny. A refusal ends the run with an error. Therefore no program is ever loaded for a function and a hook that the kernel refuses, whatever the options and patterns; such functions do not enter a function graph and are shown as not traceable. Nothing else is left out for that reason, except two functions that are unsafe to probe.", "quantifier": "all option lists, patterns, kernels and type information; all functions; all answers of the kernel", "why_tests_cant": "every pattern and kernel; a test would need a kernel with each of these functions", "anchors": ["internal/bpfsnoop/kernel_functions.go: noreturnFuncs, tracingDenyFuncs, searchKernelFuncs", "internal/bpfsnoop/func_graph_parser.go: add", "internal/bpfsnoop/func_graph_proto.go: detectKfuncTraceable", "internal/bpfsnoop/bpf_tracing_func.go: ignoreFuncTraceVerifierErr"]}
{"id": "C94", "title": "Graph events keep their depth when programs interrupt one another", "statement": "A program of a function graph captures the stack of its task into a buffer of its CPU and then walks it. Whatever programs run on other CPUs, and whatever programs interrupt it, the session and the depth it finds are those its own stack tells: the innermost enclosing traced call that has a session, and the number of traced calls in between. It always ends.", "quantifier": "all interleavings of all runs of graph programs on all CPUs, word by word; all stacks, sessions, limits", "why_tests_cant": "interleavings are unbounded and a test cannot place an interruption between two words of a copy", "anchors": ["bpf/bpfsnoop_fgraph.c: bpfsnoop_fgraph_stack, get_fgraph_stack_buf, try_get_session"]}
{"id": "C95", "title": "The test runner's verdict has a reason", "statement": "The runner of the project's test files (localtest) reads a file as written: split at lines with ---, of each case the last value of each key. A file passes exactly if every part is a valid case and every selected case passed. A case passes only if the command printed a line with the text to match; it fails only if a timer fired or the command ended with an error; the run ends with a verdict.", "quantifier": "all test files, selections and verdicts; all commands' outputs and all interleavings of the command, the goroutines that read it, the timers and the test", "why_tests_cant": "files, outputs and schedules are unbounded, and a lost line or a hang needs a particular schedule", "anchors": ["cmd/localtest/file.go: parseTestCase, testFile", "cmd/localtest/test.go: test", "cmd/localtest/main.go: main"]}
{"id": "C96", "title": "Compiled expressions stay within their part of the stack", "statement": "Code compiled for an output expression or a filter reads and writes only the word at R10-8, into which helpers read, and at most six words directly below the bytes its caller reserves; it never writes R10. The number of bytes reserved is the one asked for, rounded up to a multiple of eight, eight if none is asked for. So, however a run ends, everything else the caller keeps on the stack is as before.", "quantifier": "all accepted expressions, types, read modes and registers kept by the caller; all numbers of reserved bytes; all memory contents, helper results and runs", "why_tests_cant": "which registers are live at a helper call depends on the whole expression, and a clobbered word shows only if the caller keeps something there", "anchors": ["internal/cc/compiler.go: newCompiler", "internal/cc/expr.go: CompileExprOptions.ReservedStack, pushUsedCallerSavedRegsN, popUsedCallerSavedRegsN", "internal/bpfsnoop/output_arg.go: argOutputStackOff"]}
{"id": "C97", "title": "The function disassembled is the one selected", "statement": "bpfsnoop -d -k X shows the first symbol named X; if X is an address, the code at that address under the name of the symbol that covers it; otherwise, of the traceable functions matching the pattern X, one with the least name; otherwise the function that debug information of the first module that has X gives, at the address at which the module is loaded; and says that X was not found only if no module's debug information has it.", "quantifier": "all selectors, symbol tables, modules, debug information, functions and orders in which Go walks its maps", "why_tests_cant": "symbol tables and modules differ between machines and the order of maps between runs", "anchors": ["internal/bpfsnoop/disasm.go: parseDisasmKfunc, findDisasmKfuncInKmods", "internal/bpfsnoop/addr2line.go: addKmod", "internal/bpfsnoop/kernel_functions.go: inferenceKfuncKmods"]}
{"id": "C98", "title": "Programs attached to programs are left out", "statement": "Of the BPF programs selected for tracing exactly those are left out that are attached at entry or exit of another BPF program; all others, and when disassembling all, are kept.", "quantifier": "all sets of links, in all orders, and all programs", "why_tests_cant": "what links a system has is unbounded, and what the kernel reports for a link depends on what it is attached to", "anchors": ["internal/bpfsnoop/bpf_link.go: newBPFLinks", "internal/bpfsnoop/bpf_tracing_info.go: canTrace, addTracing"]}
{"id": "C99", "title": "The limit on parameters is found by trying", "statement": "Before anything is traced bpfsnoop finds out whether functions with up to 12 or only with up to 6 parameters can be traced, by trying one with 7 to 12; the answer is that of the kernel whichever function is tried, and it is an error only if there is no such function. With the lower limit exactly the functions with more parameters are left out.", "quantifier": "all kernels: functions, symbols, memory, programs that load; all global options", "why_tests_cant": "which function is tried depends on the kernel and on the order of a Go map", "anchors": ["internal/bpfsnoop/kernel_functions_max_arg.go: DetectSupportedMaxArg", "internal/bpfsnoop/kernel_functions.go: matchKernelFunc, findKernelFuncs"]}
{"id": "C100", "title": "The callees of a function in a call graph are those its code calls", "statement": "Of every function in a call graph exactly the functions are found that its code calls, wherever the calls are in the code; a BPF program replaced by another counts as that other program.", "quantifier": "all code, all memory, all addresses, all disassemblers", "why_tests_cant": "it concerns all code the kernel may contain, and addresses and distances of 32 and 64 bits", "anchors": ["internal/bpfsnoop/func_graph_parser.go: parse, getCalleeIPFromInsn, getCalleeIP", "internal/bpfsnoop/bpf_disasm.go: disasmKfuncAt"]}
{"id": "C101", "title": "A call graph has exactly what the code of its roots reaches by calls", "statement": "The functions of a call graph are those that can be reached from the given functions by the call instructions in the kernel's code, in no more calls than the depth asked for, going on only from functions that may be traced; a BPF program replaced by another stands for that one.", "quantifier": "all kernel code and memory, all sets of roots, all depths, all schedules of the parser's goroutines", "why_tests_cant": "it ranges over all code, cyclic or not, and all interleavings of the goroutines", "anchors": ["internal/bpfsnoop/func_graph_parser.go: parse, add", "internal/bpfsnoop/func_graph.go: FindGraphFuncs"]}
