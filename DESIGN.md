# Formal model of selected parts of nvc

The source is `/repo` (C). Nothing of it is executed. The Lean project in
`lean/` contains hand-written models of the C functions, one Lean module per
subsystem, small independent specifications, and theorems connecting them.

Layout of `lean/Verif/`:

* `X/Model.lean`    definitions that follow the C code function by function,
  each with a comment giving file and lines and any simplification;
* `X/Lemmas.lean`   helper lemmas (optional);
* `X/Props.lean`    the property theorems (the names listed in MANIFEST.json),
  the specifications they refer to, non-vacuity examples, and counterexamples.

## Conventions

* Machine integers are `BitVec n`/`Nat`/`Int` with explicit wrap or explicit
  range checks; where C behaviour would be undefined the model has a distinct
  outcome (`none`, `.ub`) instead of an arbitrary value, and a theorem says it
  is not reached or exhibits an input that reaches it.
* Loops become structural or well-founded recursions. Loops which might not
  terminate get fuel and the theorem states termination (fuel suffices).
* Memory is lists or finite functions; pointers are indices.
* Concurrent code is a labelled transition system over atomic steps
  (sequential consistency), one step per atomic access, any number of threads.
* When the code violates a property, the negation is proved on a concrete
  witness (theorem name ends in `_counterexample`) and the strongest true
  restriction is proved with a name ending in `_partial`.

## Trusted base

* the Lean 4.33.0 kernel; the axioms `propext`, `Classical.choice`,
  `Quot.sound` and no others (`#print axioms` for each property theorem);
* Mathlib modules imported one by one (lemmas only);
* the correspondence between the C text and the Lean definitions, which is by
  reading; comments cite the lines;
* C semantics as used: two's complement, `unsigned` wraps, arithmetic right
  shift of negative numbers, GCC `__builtin_*_overflow`; SIMD intrinsics with
  the lane semantics of the vendor manuals;
* for the concurrent models: sequentially consistent interleaving of atomic
  accesses; pthread mutex/condition semantics (with spurious wake-ups).

For C84 the library of LLVM is trusted: the meaning of its instructions is written down in the model
(`Expr.eval`, `lrun`), and its optimisations and machine code are taken to keep that meaning.

Not modelled at all: most of the front end (parser apart from the parts named in the table, overload
resolution, most of the simplifier and of lowering), the machine code that LLVM and jit-x86.c
emit, OS and file-system behaviour, ZSTD, memory exhaustion, weak memory effects.

## Plan per property

| Property | What is modelled | How it is proved |
|---|---|---|
| C01, C02 | the two varint loops and the zig-zag mapping on `Nat` below 2^64 / `BitVec 64` | strong induction on the value, round trip with arbitrary suffix; prefix freedom is a corollary |
| C03 | writer as state machine over pending block / emitted blocks, header, reader over decompressed bytes | invariant `emitted ++ pending = everything written`, then round trip per field type; block codec abstracted as C04 |
| C04 | compressor as the C loop with hash table, token emission and back-patched literal count; decompressor as the C loop with out-of-bounds outcome | token-level round trip by an invariant "decompressing the output so far gives the input so far" |
| C05 | scalar loop (8-way unrolled with delayed reduction) and vector loop | invariant relating accumulators to the mathematical sums; bounds show no 32-bit overflow; single byte change by modular arithmetic |
| C06, C07 | delta encoders/decoders with context, string tables | simulation relation writer context / reader context, induction over the sequence |
| C08 | operand encoder/decoder, instruction header packing, location delta coding, string table | round trip per operand kind, then induction over instructions; counterexample for locations without file |
| C09, C10 | array heap with 1-based indices as in heap.c | heap-order and multiset (`List.Perm`) invariants through sift up/down |
| C11 | inline word and word-array representations | refinement to `Finset`/predicate on bits by extensionality |
| C12-C16 | open addressing tables with tombstones, growth and rehash, cache | representation invariant (probe chain has no hole), refinement to a map; counterexamples for size 1/2 tables and for ghash double put |
| C56, C57 | string functions on identifiers | list lemmas; complete table over all bytes lifted to strings |
| C17, C18 | interning table with triangular probing, reprobe limit and growth | invariant; pigeonhole argument for non-termination |
| C19 | dynamic programming rows as in C | equality with the recursive edit-distance function and minimality over edit scripts |
| C20 | recursive matcher | equivalence with an inductive matching relation (one-or-more), counterexample to the zero-or-more reading |
| C21-C24 | the C loops on lists of nine-valued digits, 8-bit packing by multiplication | each loop is related to the numeric value of the vector; the multiply/shift tricks are verified over all 256 (or 2^16) byte values lifted from complete tables |
| C25 | full 9x9 tables and the SIMD shuffles as lane functions | table equality by complete case split, lifted to vectors by induction |
| C26 | `__conv_signed` and comparison | counterexample, partial theorem for vectors without weak values |
| C27, C28 | square-and-multiply loop with overflow flags on bounded `Int` | loop invariant; exactness of overflow by monotonicity of powers |
| C29, C30 | builder folding rules, stamps as intervals | semantic equivalence per rule; counterexamples for trap_mul, 0-x, lost traps, unsound rem and union |
| C31 | iterative set-intersection algorithm | invariants: over-approximation at every step; fixpoint is exactly path dominance |
| C32, C50, C51, C52 | small-step semantics of JIT IR, the passes as in C | simulation; for value numbering an invariant that gives every number a value, threads of jumps, and counterexamples |
| C60 | blocks and edges of the control flow graph as built by the three loops | loop invariants; every step of the interpreter follows an edge |
| C33 | interval allocation loop with active list, register mask, spill counter | loop invariant |
| C62 | promotion of stack variables, layout of the frame | each variable is a cell beside the world; lockstep simulation, one promotion at a time |
| C63 | emission of arithmetic with folding, ranges and elided checks | invariant of the block for one assignment of the inputs (it runs, every range contains its value); one lemma per emit function, induction on the expression |
| C64 | ordinal numbers in messages | text of `ordinal_str` against the English ending |
| C65 | `Verif/Psl/Simplify*`: the depth first search over a list of states with edge lists changed in place | acceptance and moves of a cycle as inductive relations that follow epsilon edges; one step of the loop keeps them |
| C66 | `Verif/Psl/Build*`, `Verif/Psl/Path.lean`: `build_node` by structural recursion over sequences; every construction adds a part (a set of edges from a start to an end) | which stretches of cycles a sequence describes, by recursion over the sequence without automata; paths through parts that have one state in common |
| C67 | `Verif/Jit/Layout*`: types as trees; `layout_of`, `signal_layout_of`, `lower_type`, `lower_signal_type`, `irgen_size_bytes`, `irgen_align_of` by structural recursion | every scalar access of a value as a relation over paths; two places are apart; agreement of parts, field by field |
| C68 | `Verif/Net/Ws*`: both buffers with their sizes and pointers, `ws_send`, `ws_flush`, `ws_poll` from one `recv` to the next; `int` and `size_t` conversions of the length written out | the form of a frame as a relation after RFC 6455; the messages whose frames have arrived in whole |
| C69 | `Verif/Net/Cx*`: the receive loop with any JSON parser, connections coming and going | messages separated by zero bytes; answers in the same order |
| C70 | `Verif/Net/Text*`: `base64_encode` by its index, packets with their allocation | a decoder after RFC 4648 by character ranges; fields as big endian numbers, unique |
| C71 | `Verif/Lex/Bitstr*`: the loop of the lexer over the buffer with `src[-1]`, the state of `bit_string_to_literal` (padding, bits), the division of the decimal digits | digits by their position in the alphabet, expanded value as a relation, adjustment by added or removed elements, numbers |
| C72 | `Verif/Lex/Num*`: `strip_underscores`, `strtok`, `strtoll` with saturation and the prefix `0x`, `atoi` with 32 bits, the loops of the exponent | numerals as an inductive relation of text and number, exponent, literal; the regular expressions of the scanner |
| C73 | `Verif/Obj/Mark*`: words of mark bits over arbitrary memory, lazy clearing with `mark_low` and `mark_high`, 16-bit generations | history of calls; the last run of calls of one generation |
| C74 | `Verif/Obj/Model`, `GcProps`: arena as a list of objects with sizes by class, recursive marking, forwarding table | reachability as an inductive relation; addresses by splitting the list |
| C75 | `Verif/Obj/Model`, `Io*`: `object_write` and `object_read` over tokens, key map, search for dependencies with any loader, asserts as undefined | `Copied`: an image of every living object of every arena that has been read, under the map of pointers |
| C76 | `Verif/Obj/Tables` (generated from the four `has_map` tables), `Kind*`: rounds of `object_init`, words of items, loop over the bits | `Linked` kinds, the value of each item by `lookup_item` |
| C77 | `Verif/Obj/Copy*`: closure over arenas with stored flags, depth-first search with marks and allocation order, barrier | `Reached` and `Needs` as inductive relations, `Image` of an object |
| C78 | `Verif/Hash/Chash*`: `chash_put`, `chash_get` and growing as a transition system of any number of threads, one step per shared access; probe distance instead of slot index; replaced tables stay in memory | calls, returns and stores only: `lastWrite`, `Open`, `Written`, `Seen` (`ChashSpec`) |
| C79 | `Verif/Handle/*`: the tables of handles of `rt/fileio.c`, `vpi/vpi-model.c` and `vhpi/vhpi-model.c`, one model for 16 and 32 bits of generation; what a slot refers to is a number | `fileOf`, `objOf`: folds over the sequence of openings and closings that do not mention the table; `handles` is the list of issued handles |
| C80 | `Verif/Udp/Model`: the process that `vlog_lower_udp` generates for the table of a user-defined primitive, from the text of the rows | `Udp/Spec`: matching of rows and `Next` after IEEE 1364-2005 clause 8; `Row.text` is what the parser keeps |
| C81 | `Verif/Pp/Model`: `processed_yylex` with its stack and `pp_cond_analysis_expr` with its look-ahead, on a list of tokens | `Pp/Spec`: syntax trees of texts with directives, their tokens (`toks`), and what remains of them (`out`) after IEEE 1076-2019 clause 24.2 |
| C82 | `Verif/Jit/Fill*`: `jit_fill_irbuf` and the order in which `jit_irgen` writes a function, any number of threads, each a stack of calls; one step per access to shared fields | events of the steps: when a call returns the function is complete; counts of generations; number of steps left |
| C83 | `Verif/Jit/Code*`: the code cache (pages, free spans, blobs, labels and patches) and `jit_x86_patch`; any number of threads, each function one step | items at consecutive addresses; the displacement read from memory leads from the end of the jump to the label; disjointness of pieces of memory |
| C84 | `Verif/Jit/Llvm*`: `cgen_function` and all it calls in jit-llvm.c, from intermediate code to an SSA function (expressions, phi nodes, terminators), and an interpreter of that function; the bodies of `tlab_alloc` and `exp_overflow`, the frame anchor | the interpreter of the intermediate code of C50; simulation on live registers, block by block, with a bound on how far the SSA function is behind |
| C85 | `Verif/Cov/Model`, `FileModel`: `cover_merge_scope` with its scan from the same index, `cover_merge_one_item`; the writer and the reader of `.ncdb` files over typed values | `Verif/Cov/Spec`: a database is a partial function from paths and keys to bins (a count or unreachable), merging is the pointwise union; round trip |
| C86 | `Verif/Cov/CountModel`: the toggle callbacks with their batches of 8 bytes, the marks of constant ports, `cover_add_toggle_items` on types, the state callback with its wrapped tag, the tests that `lower_logical` and `lower_short_circuit` emit | `Verif/Cov/CountSpec`: rising and falling changes between values of `std_ulogic`, positions of elements by strides, operands that matter |
| C87 | `Verif/Case/Model`: lowering of case statements to blocks for scalars and arrays, the encodings of arrays, the elements of choices, `emit_case`, the instructions of the JIT, folding of known values, the function for case generate | `Verif/Case/Spec`: the values that a choice stands for, the alternative that is selected, elements of array expressions by associations |
| C88 | `Verif/Predef/Model`: the generated functions of the predefined operators of arrays as programs: order and equality, shifts, logical operators of arrays and scalars, reductions, MINIMUM and MAXIMUM, matching operators with the tables of std_logic_1164 | `Verif/Predef/Spec`: repeated basic shifts, lexicographic order, equality by matching elements, reductions by counting, matching operators by logic levels |
| C89 | `Verif/Seq/Model`: lowering of if, loops, exit, next, return and wait to basic blocks with registers, variables and temporary variables, the machine which runs them and loses registers at a wait | `Verif/Seq/Spec`: statements as a structured language with a recursive interpreter; simulation in both directions with a count of steps, exact condition for failure |
| C90 | `Verif/Expr/VhdlModel`, `VlogModel`: the recursive-descent parsers of VHDL and Verilog expressions over tokens | `Verif/Expr/VhdlSpec`, `VlogSpec`: the grammars as inductive relations between tokens and trees; the parser decides the relation, the relation is a function |
| C91 | `Verif/FourState/Model`: the package NVC.VERILOG (lib/nvc/verilog-body.vhd) over four-state vectors and nets, and the choice of its functions | `Verif/FourState/Spec`: IEEE 1800 11.4 by what unknown bits may be, by numbers, and table 6-2 for wires |
| C92 | `Verif/Textio/Model`: the procedures of STD.TEXTIO (lib/std/textio-body.vhd) on lines, with null lines, index errors and overflow as outcomes; reals are left out | `Verif/Textio/Spec`: texts of integers, digits, fields and lines, given without the procedures |
| C93 | `mangle_one_type`, `mangle_func`, prefixes of scopes, `get_call_context`, `parse_ex_id`, `copy_with_renaming`, `lower_predef_func_name`, `safe_symbol_win32` (`Mangle/Model.lean`) | paths of regions and subprograms with profiles (`Mangle/Spec.lean`); a path can be read back from its name |
| C94 | `parse_value` for arrays, integers, enumerations and physical types (`ParseValue/Model.lean`) | texts and what they stand for (`ParseValue/Spec.lean`) |
| C95 | date, time and file name functions of STD.ENV (`StdEnv/Model.lean`); reals are exact fractions, `gmtime_r`, `localtime_r` and `realpath` are parameters | Gregorian calendar by counting days of years and months, ISO 8601 texts, splitting of paths (`StdEnv/Spec.lean`) |
| C96 | set of drivers and the test for a unique driver of `src/driver.c`, `longest_static_prefix` and `same_tree` of `src/common.c` (`Drivers/Model.lean`); sequential statements are the list of their targets | what a name covers as paths of steps, prefixes, drivers as a relation over the statements (`Drivers/Spec.lean`) |
| C97 | formatting of values, layout and names of variables, times, selection and scopes of `src/rt/wave.c` (`Wave/Model.lean`); the FST library is a list of outputs, decimal numbers are not written out | meaning of binary texts, literals, offsets in arrays, times of changes, lines of a file (`Wave/Spec.lean`) |
| C98 | `mt19937_init`, `mt19937_next`, `get_random` of `src/rt/random.c` (`Random/Model.lean`); the array is a function, loops have a variable bound | the recurrence of MT19937 on an unbounded sequence of words and its tempering (`Random/Spec.lean`) |
| C99 | the printers and `printer_for` of `src/rt/printer.c` (`Printer/Model.lean`); the table is a list, types are numbers with base and kind | meaning of digits, signed decimals and string literals; texts without the separator (`Printer/Spec.lean`) |
| C100 | `check_format`, `_std_env_get_assert_format`, `apply_format`, the counters, masks and exit status of `src/rt/assert.c` (`Assert/Model.lean`); time, path and severity names are given texts | the grammar of formats, padding, number of messages in a history (`Assert/Spec.lean`) |
| C101 | `cover_parse_exclude_file` for a line, `cover_exclude_scope`, `cover_fold_scopes` (`CovEx/FoldTree.lean`), `cover_ignore_from_pragmas` and its use, `cover_should_emit_scope` (`CovEx/Model.lean`), `cover_load_spec_file` (`CovEx/SpecFile.lean`); matching is a parameter | lines of words, last pragma before a line, sums up to a limit (`CovEx/Spec.lean`) |
| C102 | `cobertura_get_line`, `cobertura_get_class`, `cobertura_export_scope`, `cobertura_class_stats`, the percentages and `get_relative_path` of `src/cov/cov-export.c` (`Cobertura/Model.lean`), the walk over the scopes (`Cobertura/Walk.lean`) | executions, branches and outcomes of a line in a list of items (`Cobertura/Spec.lean`) |
| C103 | `cover_append_item_to_chain` for one kind of items, the loop of `cover_report_hier_scope`, the average of `cover_print_summary_table_row`, `cover_print_char` of `src/cov/cov-report.c` (`CovRep/Model.lean`), the items of a file in `cover_rpt_file_collect_scope` (`CovRep/Files.lean`), `cover_report_hier_children` (`CovRep/Tree.lean`) | covered, waived and missed items (`CovRep/Spec.lean`) |
| C104 | `bit_vec_to_string`, `_std_to_string_time` (the quotient of doubles is left open) and the check of formats in `_std_to_string_real_format` of `src/rt/standard.c` (`ToString/Model.lean`) | `ToString/Spec.lean`: the number of a vector and of a text in a base, the units of TIME |
| C61 | walk over the graph that builds the intervals, allocation, code with slots | closed set of covered positions; simulation on live registers |
| C34 | interval list insertion and gap count | invariant for disjoint choices; counterexamples for overlap after adjacent merge and null ranges |
| C35-C37 | transaction list insertion, driver update, event queue | invariants over histories; counterexample for inertial rule |
| C38 | model_cycle with arbitrary jobs | what a cycle runs and when, for every behaviour of the jobs; counterexamples for postponed processes |
| C40 | sched_event, clear_event, copy of the waiters | counting occurrences after any history; counterexample for adding twice |
| C39, C54 | chain of nexuses with stored values, split_nexus, index | invariant over any sequence of requests; specification by number of elements before each nexus |
| C59 | list of sources, resolution tables, force/release/deposit, copies of sources when a nexus is split | one theorem per language rule, for any resolution function; counterexamples for deposit on a forced signal and for splitting with disconnected sources |
| C41-C44, C53 | transition systems, one step per shared access; mutex and condition variable with spurious wake-ups; task copies of the deque are not atomic; `barrier_wait` is used by the tests only; work queues over an atomic deque (justified by C43) and an atomic global queue (refined by `GlobalqProps`), sequentially consistent memory, unbounded epochs and counts | inductive invariants over all reachable states for any number of threads |
| C45 | `Verif/Gc`: heap of lines with the head mask (bit masks of C11), free list, conservative marking with its work list, sweep; thread-local buffers in three variants | histories of allocations and collections; spec in terms of addresses and sizes; reachability by induction; the mark mask is exactly what is reached |
| C46 | `Verif/Vlog/Number*`: the three representations with their fields; text, packing, files | digits of the text as a list; value of words; counterexamples where the representations lose digits |
| C47 | `Verif/Psl/Guard*`: tagged pointers with addresses, `add_edge`, `build_else_guard`, `psl_lower_guard` | truth of a guard in a cycle; counterexamples for the comparison of compound guards and the disjunction with an absent guard |
| C48 | the unit loop | arithmetic |
| C49 | memory as a function, chunked loops | invariant of the loops; counterexample for cmp_values below 8 bytes |
| C55 | bit tricks | arithmetic; `BitVec` facts |

## Findings in the code (disagreements between code and property)

Recorded as they are confirmed; each has a `_counterexample` theorem once its
module exists.

1. `ghash_put` (hash.c) does not stop after replacing an existing key: a
   duplicate entry is added; after `ghash_delete` the old value reappears.
2. Hash tables created with size 1 or 2 can become completely full, after which
   looking up an absent key never terminates.
3. Interning more than 20 identifiers with the same 32-bit hash makes the
   identifier table grow without end.
4. `ident_glob`: `*` needs at least one character.
5. `mir_build_trap_mul` folds with the subtraction rules; `mir_build_sub`
   folds `0 - x` to `x`; checked add/sub fold ignoring the width of the type.
6. `mir_stamp_rem` and `mir_stamp_union` give unsound ranges.
7. `insert_transaction` keeps a transaction that the LRM marking rule deletes
   (`inertial_counterexample`; `inertial_partial` says exactly when).
8. `__conv_signed` extends with the raw sign element ('H'/'L' kept).
9. `interp_exp` truncates the exponent to the width of the result type.
10. `same_guard` compares a binary guard with itself; `or_guard` treats the
    absent guard as neutral.
11. Verilog small numbers with 29 to 31 digits lose their top digits.
12. Locations without a file name are packed absolutely but unpacked as
    differences (jit-pack.c; `pack_counterexample`). Whether the front end ever emits
    such a location operand was not established.
13. The case-choice coverage check accepts incomplete, overlapping choices in
    some orders (2, 1, 2 for the type 1 to 3: `duplicate_counterexample`), counts the
    missing values in 32 bits (`size_counterexample`) and rejects null ranges
    (`null_counterexample`).
14. Local value numbering turns checked arithmetic into a move without setting
    the flags, and reuses entries whose operands were reassigned.
15. `workq_scan` scans the current thread's entry queue for every index.
16. `lower_ports` (lower.c) creates its set of directly mapped ports with
    `hset_new(nports * 2)`; a single record port associated field by field fills
    the size-2 table, and the next query for an absent key does not return
    (the table side is `lookup_size2_counterexample`).
17. `next_power_of_2(0)` is 0, giving tables without slots; `heap_new(0)` gives a
    heap whose first insertion writes out of bounds.
18. `ilog2` above 2^62 shifts into the sign bit; `saturate_add` returns the
    maximum for negative signed overflow. No caller reaches either.
19. A block written by `fbuf` in FASTLZ mode may be padded in mid-stream when it
    is shorter than 16 bytes (partial theorem for C03).
20. An empty identifier (which `ident_from`/`ident_until` can create) is written as
    index 0 and makes the reader switch to the format before 1.13
    (`empty_ident_counterexample`).
21. `loc_file_ref` compares the name before stripping `//`, so a name with `//` gets a
    new entry on each call; a file registered after the index was written makes the
    reader stop.
22. `ident_glob`: the manual says `*` matches zero or more characters, the code needs at
    least one (`glob_counterexample`).
23. Interning more than twenty identifiers with one hash value grows the identifier table
    for ever (`growth_diverges`).
24. `ident_casecmp` on x86-64 does not fold the letters of ISO 8859-1 above 127, unlike the
    portable version (`casecmp_counterexample`).
25. `unpack_reg` asserts `enc < JIT_REG_INVALID - 1`, which also rejects the registers
    65533 and 65534 that `pack_reg` writes (`reg_counterexample`).
26. "=" of STD_LOGIC_SIGNED (`synopsys_eql_signed`) says that "H" and "11" differ although both are
    -1: `__conv_signed` extends the shorter operand with the element as given
    (`syn_eql_signed_counterexample`).
27. The intrinsic for NEON "xor" is registered under the name `"neon"` and `TO_01` on SIGNED with an
    UNSIGNED result type (jit-intrin.c 1876-1877, 1845-1846), so neither is ever selected
    (observation, not modelled).
28. The Synopsys accelerators read an uninitialised element when exactly one operand is null
    (`result[pad]` with `pad = size`, jit-intrin.c 1324, 1350); the theorems need both operands
    not null.
29. The tag of the work-stealing deque has 32 bits: a thief suspended during exactly 2^32 resets
    of the deque returns a task a second time (`Deque.wrap_counterexample`).
30. A pending null transaction is stored with the negated time and is dropped by any later
    assignment, even in one waveform such as `'1' after 3 ns, null after 5 ns, '0' after 7 ns`
    (`Sim.null_counterexample`).
31. A null transaction at time zero has the time `-0` and is taken for the value 0
    (`null_zero_counterexample`).
32. `sched_disconnect` leaves the fast mode without converting a queued fast update, which is then
    lost: `'1', null after 5 ns` (`disconnect_counterexample`).
33. The fast path of `sched_driver` overwrites the driver's current value; if the transaction is
    deleted by pulse rejection in the same process execution, the driver keeps that value, which
    `'driving_value` then returns (`fast_value_counterexample`).
34. `sched_disconnect` with a rejection limit compares values with a null pointer when the value has
    more than 8 bytes; `clone_source` queues the copy of a null transaction at the negated time
    (observations, not modelled).
35. A postponed process whose `wait for` times out is put into the queue of the ordinary processes
    (`model_cycle`, rt/model.c 3274-3282) and runs before the last delta cycle of the time step
    (`Cycle.timeout_counterexample`).
36. `check_postponed` is not called for `wait for 0 ns`, so a postponed process can cause a delta
    cycle (`Cycle.zero_wait_counterexample`).
37. `sched_event` on an object that waits already may store it a second time, in a slot freed before
    it, and `clear_event` then leaves one copy (`Pending.twice_counterexample`); `wait` statements
    do not use it this way.
38. `cmp_values` compares eight bytes whatever the size of the value, and `copy_value_ptr` fills them
    from the neighbouring memory, so equal small values may compare unequal and pulse rejection
    deletes transactions it should keep (`Copy.cmp_values_counterexample`).
39. `clone_source` does not copy `disconnected`: when a nexus is split, a released force, a used-up
    deposit or a driver disconnected by a null transaction is connected again in the new nexus
    (`Driving.split_reconnects_counterexample`).
40. `calculate_driving_value` takes the first connected forcing or deposit source in chain order: a
    deposit on a forced signal overrides the force if the signal had a deposit before it was forced
    (`Driving.deposit_over_force_counterexample`).
41. `nexus_initial` and `nexus_driving` are the same memory; after the first update of a signal whose
    effective value is kept separately, releasing a force on it without any driver fails the
    assertion `NET_F_HAS_INITIAL` (observation, not modelled).
42. The exponent of an integer power is converted to the type of the base without a check (lower.c
    2146-2149): for a type with eight bits `2**256` is 1 without any overflow, and `1**128` never
    ends because the exponent becomes negative and is shifted arithmetically
    (`exp_truncated_counterexample`, `exp_endless_counterexample`).
43. Copy propagation does not drop a moved register-relative address when the register is overwritten
    (`cprop_stale_counterexample`); `irgen` computes such addresses with LEA, so no source program that
    shows this is known.
44. Copy propagation may replace a register by a number in an operand that the interpreter reads as a
    pointer, which is then a fatal error (`cprop_kinds_counterexample`; same remark).
45. `cfg_liveness` takes a combining comparison (CCMP, FCCMP), which reads and writes the flags, only for
    one that writes them: flags live into a block that begins with one are not reported
    (`liveness_chain_counterexample`).  `irgen` emits it after another comparison of the same block.
46. `lscan_walk_cfg` iterates over masks with one bit more than there are registers, the one for the flags:
    if the flags are live at the start of a block it writes `li[nregs]`, outside the array
    (`lscan_flags_counterexample`).  `irgen` tests flags in the block that sets them.
47. `jit_do_lscan` reads `active[-1]` when no machine register is allowed
    (`alloc_no_register_counterexample`); the only caller allows two.
48. `jit_lvn_add`, `jit_lvn_sub` and `jit_lvn_mul` replace checked arithmetic on constants by a move, which
    does not write the flags; the jump that `irgen` puts after every checked operation then tests what an
    earlier comparison left there (`lvn_checked_counterexample`: a false overflow error for `x + 1` with `x`
    known to be 5).
49. The same functions use the range of the signed type also for unsigned operations
    (`lvn_unsigned_counterexample`: `1 - 2` is -1 and the overflow is not reported).
50. `jit_lvn_memset` multiplies the value with `0x100000001` and its like as if the bits above the size were
    zero: `(1 to 2 => -1)` of 32 bits is stored as -1, -2 (`lvn_memset_counterexample`).
51. `jit_lvn_exp` stores 1 in an operand without changing its kind, so that `2 ** n` with the 2 in a register
    becomes a shift of register 1 (`lvn_exp_counterexample`).
52. Entries of the hash table are compared by the numbers their operands have now, not those they had when the
    entry was made.  A variable that `jit_do_mem2reg` put in a register changes its number when it is assigned;
    the entry for an earlier load of the variable then matches a later load, if it is found first
    (`lvn_table_counterexample`: `x := x + 1; return x` returns the old value).
53. `jit_lvn_send` does not change the number of the argument it overwrites, so a later send or receive of the
    same argument is wrong (`lvn_send_counterexample`; code made by `irgen` has a call in between).
54. `try_promote_allocation` goes on to the next instruction when a store has another address, before it looks at
    the stored value: a variable whose address is stored elsewhere is promoted
    (`mem2reg_escape_counterexample`; `irgen` copies addresses with MOV or LEA before it stores them, which does
    prevent the promotion).
55. Stores to a promoted variable become moves that do not cut the number to the size of the variable
    (`mem2reg_narrow_counterexample`).
56. Proved from the model of the builder (findings 5 and 6 above): `0 - x` is built as `x`
    (`build_sub_counterexample`), `x * x` of a checked multiplication as `0` (`build_square_counterexample`),
    and since a checked product gets the range of the difference, comparisons of it are folded wrongly
    (`build_trap_mul_stamp_counterexample`).
57. The range of a selection is that of the one operand that has a range (`build_select_counterexample`); the
    range of a remainder ignores negative divisors (`build_rem_counterexample`); the range of a cast assumes that
    the value fits the type, although the cast generates no code (`build_cast_counterexample`).
58. Checked addition and subtraction of constants are folded when the result fits 64 bits, whatever the type
    (`build_trap_add_counterexample`: `2147483647 + 1` of 32 bits does not trap).
59. The builder divides `INT64_MIN` by `-1` and negates `INT64_MIN` when they are constants
    (`build_int64_min_counterexample`).
60. In the emission of intermediate code, overflow checks of 64 bit integers are left out: bounds
    are computed with saturation, so they are always within the representation
    (`emit_overflow64_counterexample`, vcode.c 2913-2925); `integer` has 64 bits in VHDL-2019.
61. Sums, differences and products of constants are folded without looking at the type, so that
    overflow is not reported (`emit_fold_counterexample`); for 64 bits this is signed overflow in the
    compiler (`emit_foldUb_counterexample`, `emit_divUb_counterexample`).
62. `0 - x` becomes an unchecked negation (vcode.c 4109-4110), and `abs` is never checked
    (`emit_zeroSub_counterexample`, `emit_abs_counterexample`).
63. The range of `x / c` with a negative constant has its bounds exchanged, so that a later range
    check is left out (`emit_divRange_counterexample`, vcode.c 3966).
64. Negation, absolute value, exponentiation, division, remainder and modulus get the declared range
    of the type, which their results need not be in: range checks are left out for wrong values
    (`emit_expRange_counterexample`, `emit_negRange_counterexample`, `emit_absRange_counterexample`,
    `emit_divVarRange_counterexample`, `emit_remRange_counterexample`).
65. Types of one bit have the range check of one bit and the overflow check of 8 bits
    (`emit_oneBit_counterexample`).
66. `ordinal_str` tests `n % 10 == 2` twice, so that 23 is printed as `23th`; 111 is printed as
    `111st` (`ordinalStr_counterexample`, util.c 1108-1128).
67. `mir_get_cfg` asserts that a terminator has at most `MIR_INLINE_ARGS` (4) arguments, but a `case`
    with two choices has six (`getCfg_case_counterexample`, mir-optim.c 155). `mir_optimise` is called
    by unit tests only; the mask `tmp` of `mir_dominator_tree` is never freed.
68. The epoch of a work queue is 32 bits wide and `workq_start` does not clear the entry queues.  After
    2^32 starts the entries of a thread that submitted nothing since are executed again.  Not practical;
    the model has unbounded epochs.
69. `mspace_try_alloc` computes the lines of an object as `(size + 32) / 32` in 64 bits. For sizes from
    `2^64 - 32`, for instance `mspace_alloc_array` of `-1` elements, the object has no lines and
    shares its address with the next allocation (`alloc_wrap_counterexample`, mspace.c 183).
70. `is_mspace_ptr` includes the margin of 32 bytes behind the last line. If the number of lines is a
    multiple of 64, a word that happens to point there makes the collector read behind the end of
    the mask (`gc_margin_counterexample`, mspace.c 415-433).
71. The allocation function that the LLVM back end emits truncates the size to 32 bits. An object of
    `2^32 + 8` bytes gets 8 bytes in the thread-local buffer (`tlab_llvm_counterexample`, jit-llvm.c
    3126-3136); the C functions wrap for sizes near `2^64` (`tlab_wrap_counterexample`).
72. `mspace_alloc` runs a second collection after the second attempt failed, without a third attempt
    (mspace.c 236-243).
73. `number_shift_left` ignores the carry for small numbers: in literals with `x` or `z` of up to 31 bits
    every digit of the text becomes `x` (`new_small_lost`, `new_small_counterexample`, vlog-number.c
    61-66). `4'b1zz0` is `4'bxxxx`.
74. `number_bit` picks the wrong word of a big number unless the width is a multiple of 32
    (`new_bit_counterexample`: bit 1 of `33'h2` is zero; vlog-number.c 363-366), also for `number_pack`
    (`pack_counterexample`).
75. A small number has room for 28 digits but is used for up to 31 (`pack_counterexample`).
76. `x` and `z` are not extended to the left (`new_extend_counterexample`); underscores are rejected in
    numbers above 32 bits; decimal numbers above 32 bits fail an assertion; an underscore in the width
    calls `abort` (`new_reject_counterexample`).
77. Upper case `X` and `Z` are not recognised as digits; `8'h0X1` is read as `8'h1`
    (`new_prefix_counterexample`); values from `2^63` saturate (`new_saturate_counterexample`);
    `number_integer` ignores the width (`new_truncate_counterexample`).
78. `number_write` negates an `unsigned`, so that a signed big number cannot be read back
    (`write_signed_counterexample`, vlog-number.c 451).
79. `same_guard` reads the operator of the second guard from the first one: all compound guards are the
    same, and `add_edge` drops an edge whose compound guard differs from that of another edge to the
    same state (`same_true_counterexample`, `addEdge_counterexample`).
80. `or_guard` with an absent guard, which means true, gives the other guard
    (`or_true_counterexample`). A state that accepts unconditionally and gets a second, guarded way to
    accept then accepts only under the guard.
81. `not_guard` fails its assertion for negated and compound guards, so `build_else_guard` cannot be
    applied to a state that has a default edge, as in `{a[->1]} |=> b` (`else_defined_counterexample`).
    There is no code for `GUARD_FALSE` (`test_true_counterexample`).
82. As a consequence of 79 and 80, `psl_simplify` loses moves of automata with several edges between
    two states (`simplify_moves_counterexample`), and a state with a guarded and an unguarded epsilon
    edge accepts only under the guard (`simplify_accepts_counterexample`); `a[*0 to 1]` builds such a
    state, which is fatal in debug builds.
83. As a consequence of 79, `{{b : a[=1 to inf]}; c}` does not match the cycles `a` and `b`, `a`, `c`
    (`sequence_complete_counterexample`).
84. `intersect_fsm` calls `psl_simplify` on the unfinished automaton, which deletes epsilon edges to
    states that have no edges yet. `{a : {b && c}}` and `{a} |-> {b && c}` fail whenever `a` holds
    (`conjunction_counterexample`).
85. An empty repetition still takes a cycle: `{a[*0 to 1]; b}` does not match `b` in the first cycle
    and matches any cycle followed by `b` (`optional_counterexample`).
86. `a[*]`, `a[=]` and `a[->]` without a count have the bounds 0 to 0 and build nothing
    (`star_counterexample`, `goto_counterexample`); `a[->]` means `a[->1]`.
87. `a[*3 to 2]` is not rejected and acts as `a[*2]` (`null_range_counterexample`).
88. `layout_of` does not round the size of a record up to eight as `irgen_size_bytes` does. For a
    record inside a record the following fields (`nested_record_counterexample`), and for an array of
    records the elements (`array_of_records_counterexample`), are looked for at wrong places by
    reflection and VHPI.
89. `ALIGN_UP(p, 0)` passes its assertion and gives zero. The layout of an integer type with an empty
    range has alignment zero, so the fields of a record with such a field overlap
    (`null_range_counterexample`); the code generator uses 64 bits for such types.
90. `layout_of` and `signal_layout_of` count the dimensions of the outer array only, where the code
    generator stores those of the elements too (`nested_unconstrained_counterexample`).
91. `layout_of` decides by the number of elements whether an array is in place, the code generator by
    `type_const_bounds`, which also looks at the ranges of integer subtypes
    (`dynamic_element_counterexample`). In `count_sub_elements` minus one stands for "not known" and is
    multiplied with the lengths, so that an empty array of such arrays is taken for known
    (`empty_of_dynamic_counterexample`).
92. There is no layout for records with access or file fields although reflection has code for values
    of these types (`access_field_counterexample`).
93. `signal_layout_of` expects a pointer for a constrained array of records, which the code generator
    places directly (`signal_array_of_records_counterexample`). Fields behind such an array are looked
    for at wrong places by the FST writer and VHPI.
94. `irgen_dedup_cpool` finds a constant again at any byte, without regard to the alignment for which
    it was appended (`dedup_align_counterexample`).
95. `ws_poll` puts a zero byte after a text (src/server.c 326), which is the first byte of the next
    frame when that has arrived in the same piece.  The next message is lost, or `assert(fin)` fails
    (`text_followed_counterexample`).
96. `ws_poll` keeps the length of a frame in an `int` (src/server.c 299-301).  Lengths of 2^32 and more
    are cut (`length_cut_counterexample`); lengths that become negative are passed on
    (`length_negative_counterexample`); ten bytes with the length 2^32 - 10 make the loop run for ever
    (`length_hang_counterexample`).
97. Fragmented messages, which any WebSocket client may send, fail `assert(fin)`; without assertions
    their first part is taken for the whole (`fragment_counterexample`).  Unknown opcodes end a debug
    build.  A text with a zero byte is seen only up to it (`text_zero_counterexample`).
98. `ws_flush` and `cxxrtl_flush` take EAGAIN for a broken connection although the socket does not
    block (src/server.c 242-245, 1272-1275, 1375), so a client that reads slowly is cut off
    (`flush_again_counterexample`).
99. `cxxrtl_read_message` calls `cxxrtl_error` with the document that could not be parsed; it is NULL,
    `json_dumps` returns NULL and `strlen` crashes (`cx_invalid_counterexample`).  An array is sent
    back unchanged (`cx_array_counterexample`).  A `command` that is not a string is given to `strcmp`
    as NULL (src/server.c 1164-1165).
100. `cxxrtl_new_connection` keeps the received part of a message of the old connection
    (`cx_takeover_counterexample`), and `kill_cxxrtl_connection` keeps what was to be sent, for which
    `cxxrtl_fill_fd_set` uses FD_SET with -1 (`cx_gone_counterexample`).
101. `bit_string_to_literal` compares the elements that are removed from a signed bit string with the
    leftmost of all instead of the leftmost that remains (src/parse.c 708-716): `8SX"0FF"` and
    `8SX"FXX"`, errors in the list of examples of the standard, are accepted and the sign is lost
    (`signed_length_counterexample`, `bitstring_signed_cases`).
102. `parse_bit_string` turns percent signs inside a literal into quotation marks, which end it:
    `B"1%0"` is the same as `B"1"` (`percent_inside_counterexample`); also the other way round
    (`quote_inside_counterexample`).  An underscore before a closing percent sign is not reported
    (`percent_underscore_counterexample`).  It does not terminate the shortened string either, which
    does no harm because the parser stops at the first quotation mark.
103. The base specifiers SD and UD, which the standard does not have, are accepted
    (`signed_decimal_counterexample`).  `D"0"` has no elements.
104. `parse_decimal_literal` returns an integer for zero before it looks at the sign of the exponent
    (src/lexer.l 973-974): `0E-1` is accepted (`decimal_minus_counterexample`).
105. `strip_underscores` reports an underscore only at the end of the whole text or before another:
    `1_e5`, `1_6_#F_#` are accepted (`decimal_underscore_counterexample`,
    `based_underscore_counterexample`).
106. `parse_based_literal` reports no overflow (src/lexer.l 1017-1022).  `16#8000_0000_0000_0000#` is
    2^63 - 1 without a message; with an exponent the product overflows, which is undefined; this
    holds for every literal out of range (`based_range_counterexample`).  With zero the loop has as
    many rounds as the exponent says: `2#0#E9223372036854775807` does not end in any practical time
    (`based_rounds_counterexample`).
107. The base goes through `atoi`: `4294967298#101#` is 5 (`based_base_counterexample`).  The digits
    go through `strtoll`, which takes the prefix of C: `16#0x1F#` is 31
    (`based_prefix_counterexample`).
108. Generations have 16 bits and there is no check for the wrap (src/object.h 124, src/object.c 1066):
    a traversal that is 65536 after the last one in an arena finds all objects of that marked and
    skips them (`Verif.Obj.generation_counterexample`); every freeze, rewrite, visit and copy takes
    one.  The generation of the writers of identifiers has 16 bits as well (src/ident.c 323); after
    65535 design units in one process an identifier is written as a number that means nothing
    (`Verif.Ident.generation_counterexample`; the assertion is only against 0).
109. A reference to another arena is written as the offset after packing.  `object_read_ref`
    (src/object.c 895-911) adds it to the base of the arena with the name of the dependency, even if
    that was analysed in the same process and therefore never packed.  `object_from_locus` has a
    search for this case.  If a package is analysed again without a change, its file has the same
    checksum, so a unit that was analysed before is accepted with references to wrong objects
    (`fresh_dependency_counterexample`).
110. `object_write` wants the root of the arena, the first object of a root kind, but `object_read`
    returns the first object (`read_root_counterexample`).  It works because the parser allocates
    the design unit first.
111. A reference to an object of another arena that was not alive when that was frozen is written as
    offset 0xfffffff; reading fails an assertion or gives a wild pointer
    (`dead_reference_counterexample`).
112. `object_copy_mark` (src/object.c 1081-1082) takes an object that is still being visited and is not
    itself wanted as one that is not copied.  Objects on a cycle that refer to it stay behind, and
    the copy of the cycle leads back to the originals (`cycle_counterexample`).  For a for-generate
    statement only names of the generate parameter are wanted (src/elab.c 1736): a recursive function
    that mentions the parameter is copied and renamed, but its copy calls the original.
113. `object_copy_root_closure` recognises its results by a generation of 16 bits, like 108.
114. `chash_copy_table` (src/hash.c 573-612) reads the value of a slot and then compares only the
    tagged key before it marks the slot as moved.  A thread that overwrites the value in between
    (busy and in use again, lines 674-676) is not noticed: its store is lost
    (`lost_counterexample`).  The comment in line 671 says that the busy mark avoids exactly this.
    `mir_unit_free` and `mir_lazy_build` (src/mir/mir-unit.c 234, 277) overwrite values.
115. If the slot is busy at that moment the compare-and-swap fails and `assert (marker ==
    FREE_MARKER)` (src/hash.c 608) fails (`assert_counterexample`); without assertions the key is
    copied twice and the old value is found.
116. `chash_try_cas` (src/hash.c 698-741) does not count a key that it puts into a free slot, so a
    table that is filled with `chash_cas` never grows and a search for an absent key in it does not
    end.  Nothing calls `chash_cas` at present.
117. `handle_for` takes the slot `free_hint` without the test `generation < HANDLE_MAX_INDEX` that
    the search has (src/rt/fileio.c 112-118), and `generation++` wraps around (line 155).  A program
    that opens and closes a file 65535 times gets the handle 0 for the next opening: the file is
    open, but reading and writing fail as for a closed file (`wrap_counterexample`).  With another
    file open, handles of earlier files are issued again (`alias_counterexample`).  vpi-model.c and
    vhpi-model.c have the same code with 32 bits.
118. `__nvc_file_size` and `__nvc_file_canseek` (src/rt/fileio.c 370, 388) test `slot->file == NULL`
    although `decode_handle` returns NULL for a closed file; the other functions test `slot == NULL`.
    FILE_SIZE of a closed file crashes instead of giving the message.
119. `input_from_file` (src/scan.c 133) tests `bufsz - 1 - file_sz` where `total` is meant, so the
    buffer for a pipe never grows and only the first 16383 bytes of a source file from a pipe are
    analysed.
120. In tables of user-defined primitives the symbol `b` (0 or 1) never matches: the two comparisons
    are joined with `mir_build_and` instead of `mir_build_or` (src/vlog/vlog-udp.c 238,
    `b_counterexample`).  In an edge such as `(b1)` it reads an element of `level_map` that was never
    set (lines 253, 259, `b_edge_counterexample`).
121. A row that consists of question marks only ends the loop before its block is filled
    (src/vlog/vlog-udp.c 310-313); the process jumps to a block without code (`any_counterexample`).
122. Inputs with the value z do not match x (`z_counterexample`; IEEE 1364 8.1.6 treats z as x), a
    sequential primitive keeps its output when no row matches (line 348; the standard says x,
    `hold_counterexample`), and an edge-sensitive row before a level-sensitive one wins
    (`order_counterexample`).
123. The delay of the output of a primitive is the constant 1 although the variable is called `zero`
    (src/vlog/vlog-udp.c 185), so primitives have a delay of 1 fs and reject pulses up to it.
124. `pp_cond_analysis_expr` (src/scan.c 451-480) reads at most one operator, although the grammar in
    its comment (and in the standard) allows `a and b and c`; there is an error and the rest of the
    expression is taken for text (`chain_counterexample`).
125. A second `` `else `` in a block, and an `` `elsif `` after it, are accepted without an error and
    both parts can be kept, as `tCONDELSE` does not set `taken` (src/scan.c 603-613,
    `else_counterexample`).
126. After `` `end `` the scanner drops a token `if` wherever it is (src/scan.c 623), so an `if`
    statement on the next line loses its first word (`if_counterexample`).
127. The conditions of `` `if `` and `` `elsif `` are evaluated in parts that are not kept; an
    identifier that is not defined is an error there too (`skipped_counterexample`).
128. Functions with code compiled ahead of time start as `JIT_FUNC_READY` without `irbuf`
    (src/jit/jit-core.c 280, 333).  A thread that has read this state and then finds `irbuf` set
    returns although another thread is still writing it (line 386, `aot_incomplete_counterexample`).
    A thread that found it not set can exchange `READY` for `COMPILING` after the other one has
    finished, and the assertion at line 408 fails (`aot_assert_counterexample`).
129. When a unit is missing only the innermost function gets the state `JIT_FUNC_ERROR`; functions
    whose generation needed it stay `JIT_FUNC_COMPILING`, and a later call for them waits for ever
    (`missing_hang_counterexample`).  Threads that already wait do not test for the error either
    (src/jit/jit-core.c 395).
130. `irgen_op_link_var` (src/jit/jit-irgen.c 2682) asks for the code of the other unit although it
    needs only the table of variables.  Two package bodies that refer to each other's variables make
    the thread wait for itself for ever (`cyclic_hang_counterexample`); `irgen_op_var_upref` avoids
    this by testing the table first.
131. When a blob was too small, `code_blob_finalise` (src/jit/jit-code.c 519-525) gives the memory
    back but leaves the span in `code->spans` with its name and the size written so far.
    `code_cache_unwinder` (161-174) has no `break` and the list has the newest span first, so the
    stale span wins over the function that got the memory, and stack traces show the wrong name
    (`unwind_counterexample`).
132. The same path returns without `thread_wx_mode(WX_EXECUTE)`, which `code_blob_new` set to
    `WX_WRITE`; on systems where a thread cannot both write and execute, the thread then cannot
    execute generated code.
133. A function whose object file is larger than 4 MB fails the assertion about the size of the free
    span in `code_blob_new` (the size of the object is passed as the hint, src/jit/jit-llvm.c 3423;
    `huge_counterexample`).
134. `code_fault_handler` (src/jit/jit-code.c 182) tests `pc > page->mem + CODE_PAGE_SIZE` where `>=`
    is needed; an address just after a page is taken as part of it.
135. The x86 code generator chooses a short jump by a guess of the distance; if the guess is wrong
    the program ends with `fatal_trace` in `jit_x86_patch` (`near_counterexample`).
136. `cgen_exp_overflow_body` (src/jit/jit-llvm.c 3166-3287) keeps only the overflow of the last
    operation instead of collecting all of them as the interpreter does: 65536 ** 4 in a type of 32 bits is
    zero without an error (`llvm_exp_counterexample`).  It also replaces the flags when no check was asked
    for (`llvm_exp_flags_counterexample`) and shifts a negative exponent without its sign.
137. `cgen_frame_anchor` (2541-2543) and `cgen_macro_trim` (2272-2274) use field 2 of the allocation
    buffer, the limit, where field 1, the number of bytes allocated, is meant.  The watermark is the limit
    and is stored back over the limit, so that subprograms compiled by LLVM never give back temporary
    memory (`llvm_trim_counterexample`).
138. `cgen_real_pred` (1064-1077) uses the unordered predicates: every comparison with a NaN is true, even
    `<`, while the interpreter says false except for `/=` (`llvm_nan_counterexample`).
139. `cgen_tlab_alloc_body` (3093-3164) aligns and adds in 32 bits; a size of 2^32 bytes is taken for
    zero (`llvm_alloc_zero_counterexample`), one just below it moves the allocation pointer back
    (`llvm_alloc_back_counterexample`).
140. A handle is extended with its sign by a move, and only its low 32 bits are stored by a send
    (1424-1448; `llvm_handle_counterexample`).  Handles stay below 2^31 and the upper half of an argument
    slot is mostly zero, so it does no harm so far.
141. Consecutive `$CASE` instructions become one switch on the register of the first one (2235-2262), and
    equal constants are rejected by LLVM (`llvm_switch_counterexample`, `twiceFunc`); jit-irgen.c emits
    one register and MIR has distinct constants.
142. A load into a register that may hold a pointer reads 8 bytes whatever its size, an unsigned load into
    such a register ends the compiler, and a narrow store of one writes 8 bytes (hypotheses of `SafeOp`).
143. The saturating addition used for coverage truncates its addend, so that a negative one saturates
    (`llvm_sadd_counterexample`; only 1 is ever added, src/jit/jit-irgen.c 3483).
144. If block 0 has predecessors, its phi nodes have no value for the entry (2884-3091; `loopFunc`).
    jit-irgen.c always starts functions with straight code.
145. `LLVM_HAS_OPAQUE_POINTERSS` (src/jit/jit-llvm.c 2047) is misspelt, so the branch for opaque pointers is
    never used there.
146. Merging fails an assertion, or reads past the items in a release build, when a scope of a later file has
    all the bins of the earlier file first and then more (src/cov/cov-data.c 1159, `AREF(old_s->items, i -
    n_added)`): for example `signal s : std_logic_vector(1 to N)` with a larger `N`, or a scope that had no
    items (`merge_grown_counterexample`, `merge_fails_iff`).  With `downto`, new bins come first and it works.
147. Scopes of overloaded subprograms have the same name (src/lower.c 11037, 11070), so that merging adds the
    counts of both to the bins of the first one (`merge_overloaded_counterexample`).
148. `cover_merge_items` reads the header of each further file into the same `cover_data_t` (1212), so the mask
    given for the report (`--dont-print`, `--per-file`) is lost when several files are merged, and `next_tag`
    is that of the last one.
149. `block_name` of a scope made at run time is not written (772), see `block_name_lost_counterexample`; a
    report made from the file shows no block.
150. An item is excluded before folding (src/cov/cov-exclude.c), which sets a flag that takes part in the
    comparison of items, so excluded bins do not fold.  The loop over tokens of a line drops every token after a
    complete command (167, 388), so a second command on a line is misread.  The manual names the command
    `fsm-type` (nvc.1 857, 909, 938), the code accepts `fsm_type` (366).
151. The bin of the lowest state of an FSM is set to 1 at the start (src/rt/cover.c 299) although the initial value
    of the signal may be another one, by an initial value or a descending subtype, and the bin of the actual
    initial state is not (`initial_state_counterexample`).
152. For a signal that is an array of records the toggle callback is set up in a loop over the elements with one
    tag (src/lower.c 843-898, 1694-1716), so that all elements share the bins of each field; and fields of
    internal signals are flagged as ports (src/cov/cov-data.c 287-291).
153. `jit_get_cover_mem` may move the counters when bins are added at run time (src/jit/jit-core.c 1390), while
    functions compiled before hold their address (src/jit/jit-llvm.c 1235) and the callbacks of other threads may
    be running.
154. `simp_match_case_choice` (src/simp.c 905-916) has no `break` at the end of the case for ranges, so that
    control falls into `others`: a case statement or case generate statement with a constant value keeps the first
    alternative that has a range, whatever the range. For `case 5 is when 1 to 3 => ..; when others => ..` the
    wrong statements are executed (C87 `simp_range_counterexample`).
155. `simp_case_generate` skips choices that are not folded yet (src/simp.c 897-903, 910), such as generics when a
    unit is analysed, and takes `others` for good (C87 `simp_unknown_counterexample`).
156. `get_case_choice_char` has no case for `A_RANGE` in an aggregate (src/common.c 1576-1626), so that a choice like
    `(0 to 1 => '1')` is encoded with all bits set; `sem_locally_static` accepts it (src/sem.c 5569-5589) and the
    comment that bounds checking will report it does not hold, as there is no such check
    (C87 `char_range_label_counterexample`).
157. With the hash no coverage item is made for a choice whose hash is that of an earlier one (src/lower.c
    7059-7070), so that the report lists neither a hit nor a miss (C87 `array_cover_counterexample`).
158. `lower_case_scalar` takes a range that is not `to` for a `downto` (src/lower.c 6759-6761), which would swap the
    bounds of a range attribute that has not been simplified.
159. `lower_case_generate_thunk` stops the compiler with "sorry" for a range choice (src/lower.c 12911-12913), which
    the standard allows.
160. `predef_bit_shift` fills for `sra` with the rightmost and for `sla` with the leftmost element
    (src/vhdl/vhdl-predef.c 86-95); the LRM has it the other way round for positive amounts, so that "1000" sra 1
    yields "0100".  The test shift1 uses "1011" only, whose ends are equal (C88 `sra_counterexample`,
    `sla_counterexample`).
161. "<" of two null arrays is true and ">=" false: the test of the left length comes first (src/lower.c 10320, C88
    `lt_null_counterexample`, `ge_null_counterexample`).
162. "=" of arrays with several dimensions compares the product of the lengths only (src/lower.c 10275-10304): a 2 by 3
    matrix can equal a 3 by 2 one (C88 `eq_matrix_counterexample`).
163. MAXIMUM (and MINIMUM for a descending range) of an array whose element subtype has a range given by an attribute
    starts with the wrong bound and returns it (src/lower.c 10779-10784, C88 `maximum_expr_counterexample`).
164. The message of the assertion of `?<` is cut to seven characters, for the length is taken of a pointer
    (src/vhdl/vhdl-predef.c 401-405, C88 `match_message_counterexample`).
165. The logical and matching operators are declared by the identity of the element subtype (src/parse.c 872-874,
    1122-1124), so that an array of a subtype of BIT has none, and `?=` also for arrays with several dimensions
    (src/parse.c 1088-1096), of which it compares the first (not modelled).
166. A for loop in a procedure whose body may wait and always ends in a return, as in `for i in 1 to 3 loop wait for
    1 ns; return; end loop;`, makes the compiler stop with an internal error, for the right bound is loaded in a
    finished block (src/lower.c 6615-6624, C89 `for_wait_return_counterexample`; `procedure_lowers_iff` gives all
    such loops).
167. A return statement releases local protected objects and closes local files before its expression is evaluated
    (src/lower.c 6373-6381), so that `return p.get` uses a released object (C89
    `return_after_release_counterexample`).
168. The VHDL parser takes logical operators of different kinds without parentheses, as in `a and b or c` and `a and b
    nand c`, and groups them from the left; the grammar in its own comment forbids this (src/parse.c 4989-5030, C90
    `vhdl_mixed_counterexample`, `vhdl_nand_counterexample`).
169. Chains of relations and of shifts, as in `a = b = c` and `a sll 1 sll 2`, are taken as well (src/parse.c 4911-4987,
    C90 `vhdl_relation_counterexample`, `vhdl_shift_counterexample`).
170. `abs a ** 2` is read as `(abs a) ** 2` in every version of the standard, though only VHDL-2019 has it, and `2 **
    abs x`, which VHDL-2019 has too, is a syntax error, for the second operand is read as a primary (src/parse.c
    4779-4801, C90 `vhdl_abs_pow_counterexample`, `vhdl_pow_abs_counterexample`).
171. The Verilog parser has no binary `^`, `~^` and `**` and no unary `~&`, `~|` and `~^`; an expression with one of
    them is a syntax error (src/vlog/vlog-parse.c 1130-1443, C90 `vlog_xor_counterexample`).
172. `0 & x` and `1 | x` are x, also in the gates `and`, `nand`, `or` and `nor` (lib/nvc/verilog-body.vhd 307-332,
    443-469, C91 `and_counterexample`, `or_counterexample`, `and_reduce_correct_iff`).
173. `|` of vectors of different lengths drops the upper bits of the longer (lib/nvc/verilog-body.vhd 346-362, C91
    `or_length_counterexample`).
174. `&&` is never 1, for its loop starts with '0' (lib/nvc/verilog-body.vhd 380-390, C91 `log_and_counterexample`);
    `||` and `!` are unknown if one bit is unknown though another is 1 (334-344, 430-441, C91 `log_or_correct_iff`,
    `log_not_correct_iff`).
175. `==` of vectors which certainly differ is x if any bit is unknown (lib/nvc/verilog-body.vhd 524-561, C91
    `eq_counterexample`).
176. `<`, `>`, `<=` and `>=` are the wrong way round if the longer operand has a 1 above the length of the other, and
    are never x (lib/nvc/verilog-body.vhd 596-664, C91 `lt_counterexample`, `lt_unknown_counterexample`).
177. A sum with unknown bits keeps some known bits (lib/nvc/verilog-body.vhd 489-522, C91 `add_unknown_counterexample`),
    and the carry of a sum which is assigned to something longer is lost, for the operands are not extended to its
    length (src/vlog/vlog-lower.c 708-740, C91 `carry_counterexample`).
178. `to_string` of a vector gives its digits from right to left (lib/nvc/verilog-body.vhd 276-286, C91
    `to_string_counterexample`).
179. The value of a wire depends on the order of its drivers: x is ignored unless it comes first, a continuous
    assignment of z is strong and hides what follows, and two weak drivers make a strong x (lib/nvc/verilog-body.vhd
    39-74 and 129-133, C91 `resolve_x_counterexample`, `resolve_z_counterexample`, `resolve_weak_counterexample`).
180. The code for `!=` and binary `-` calls functions which the package does not have, and there is no case for `*`,
    `/`, `%` and the shifts (src/vlog/vlog-lower.c 382-465, C91 `binary_missing_counterexample`).
181. `read` of an integer takes a sign `+` without digits as 0, with `good` true (lib/std/textio-body.vhd 285-290, C92
    `read_int_plus_counterexample`); a number out of range is an error at run time even with the parameter `good`
    (C92 `read_int_correct`).
182. `read` of a time takes integers only, so that `1.5 ns`, which `write` makes, is not read, nor is a time of more
    units than an integer can count (lib/std/textio-body.vhd 392-433, C92 `read_time_fraction_counterexample`,
    `read_time_range_counterexample`); its search for the unit does not stop, so that `5 fsps` is 5 ps (423-432, C92
    `read_time_twice_counterexample`).
183. `read` of bit vectors, booleans, integers, times and `sread`, `oread` and `hread` of a null line are errors at run
    time, while bits, characters and strings are only not good (lib/std/textio-body.vhd 131-460, C92 `read_null`).
184. `oread` and `hread` remove the first character that is no digit from the line when they fail
    (lib/std/textio-body.vhd 477-491, 549-566, C92 `hread_bad_counterexample`).
185. `readline` drops every CR, not only one before LF (lib/std/textio-body.vhd 637, C92 `readline_cr_counterexample`).
186. `write` of `time'low` is an overflow (lib/std/textio-body.vhd 775, C92 `time_low_counterexample`).
187. `read` of a real takes two signs, and reads the first character of a line before it has tested that there is one
    (lib/std/textio-body.vhd 317-323); this is not in the model.
188. src/inst.c 94: the name of a copied subprogram is cut at the last '('. For a
     procedure without parameters in a subprogram with parameters that is the
     parenthesis of the outer one: all such procedures of one subprogram get the
     same name in an instance (`rename_nested_collide`).
189. src/inst.c 94: if a parameter has a type declared in a subprogram, the last
     '(' is inside the name of the type and the copy keeps part of the old
     signature (`rename_local_type_counterexample`).
190. src/lexer.l 921-933 removes the doubling of backslashes, after which
     `\A\\.\\B\` has the name of `\B\` in `\A\` (`mangle_ext_counterexample`).
191. src/common.c 1529-1539: for nested subprograms the context of a call is that
     of the outermost subprogram, and an extended identifier with a dot gives a
     context that does not exist (`call_context_iff`).
192. src/lower.c 6347 and 10246 cut the name of a type at the last dot; for a type
     `\a.b\` the predefined "=" and FILE_CLOSE are called by names nothing has
     (`predef_name_iff`, `file_close_iff`).
193. src/lib.c 525-528 allows a library name that begins with a digit, and then
     codes of types are ambiguous (`type_code_digit_counterexample`).
194. src/inst.c 70 and 93 compare prefixes without the dot: `WORK.P2.T` is taken
     for a name in `WORK.P` if the type is copied (`rename_prefix_counterexample`).
195. src/util.c 1994-2028: replacements are not escaped, so that `\_q_\` and
     `\"\` have the same symbol on Windows (`symbol_counterexample`).
196. src/common.c 268: the literals are asked of `type_elem (base)`, which may be a
     subtype and then has none: `-gV=01` for a generic of type STD_LOGIC_VECTOR
     before VHDL-2008 stops the program (`array_subtype_counterexample`).
197. src/common.c 322-329: the sum of an integer may overflow; so it does for the
     least integer of 64 bits (`parse_int_ub_iff`, `parse_int_min_counterexample`).
198. src/common.c 403: -1 stands for no unit, so that `-1 fs` is refused
     (`parse_phys_minus_counterexample`); a unit without number is zero of it.
199. src/common.c 342-348: the letters of extended identifiers are made capitals
     and the literal is not found, or another one is (`parse_enum_ext_counterexample`).
200. src/common.c 342: a blank ends the word, so that `' '` cannot be given
     (`parse_enum_blank_counterexample`).
201. src/common.h 109: elements have one byte, also for types of more than 256
     literals (`array_wide_counterexample`).
202. src/common.c 281: for strings the quotes around a value are part of it
     (`string_quote_counterexample`); the range of the subtype is not checked.
203. src/rt/stdenv.c 261: EPOCH adds 10^9 divided by the nanoseconds instead of
     the nanoseconds divided by 10^9: it is always late, by up to 31 years, and
     infinite in the first nanosecond of a second (`epoch_wrong_counterexample`,
     `epoch_second_late_counterexample`).  GMTIME and LOCALTIME without argument
     use it.
204. src/rt/stdenv.c 201: the seconds of the years are computed in `int`, which
     overflows from 2039 and before 1902 (`to_time_t_defined_iff`); before 1969
     the leap days are rounded the wrong way (`to_time_t_iff`).
205. src/rt/stdenv.c 300: GMTIME of a number converts it to `int`, LOCALTIME
     does not (`gmtime_defined_iff`).
206. src/rt/stdenv.c 353: `% 100000` should be `% 1000000`: subtracting half a
     second from a whole one gives a million microseconds and the assertion
     fails; a quarter gives 950000 (`add_correct_iff`, `sub_half_counterexample`,
     `sub_quarter_counterexample`).
207. src/rt/stdenv.c 267: EPOCH of a record takes it as universal time, while
     the package says local time (`epoch_local_iff`).
208. src/rt/stdenv.c 329: GMTIME of a record takes the offset of the clocks at
     the wrong moment, around a change of the clocks
     (`gmtime_trec_iff`, `gmtime_trec_counterexample`).
209. lib/std.19/env-body.vhd 181: TIME_TO_SECONDS mixes `mod` with `/` and is
     wrong for negative times (`time_to_seconds_iff`).
210. src/rt/stdenv.c 661: SECONDS_TO_TIME wraps around instead of an error
     (`seconds_to_time_range_counterexample`).
211. lib/std.19/env-body.vhd 213: TO_STRING writes the month from 0, so that the
     text is of the month before (`to_string_month_counterexample`).
212. src/rt/stdenv.c 638-645: FILE_PATH of a file in the root directory is empty
     (`file_path_root_counterexample`).
213. src/driver.c 101-116: for an external name the chain of the process is not
     followed, so that the head is replaced and the drivers found before in the
     process are lost (`proc_chain_ext_counterexample`).
214. src/driver.c 76-100: a part of an external name gets no driver
     (`proc_chain_ext_part_counterexample`).
215. src/driver.c 95: a driver of the full signal through a view hides the later
     drivers of fields which the view does not drive
     (`proc_chain_view_counterexample`).
216. src/driver.c 154-168, 199-208: ports of mode buffer and linkage are not
     counted as drivers (`visit_buffer_counterexample`).
217. src/common.c 1860: slices by a range attribute are not taken as static, so
     that the prefix is shorter than the longest
     (`lsp_range_counterexample`).
218. src/driver.c 310-429: views are ignored: a record driven through a view has a
     unique driver even if some fields have none
     (`has_unique_view_counterexample`).
219. src/driver.c 361-419: a static index outside of the bounds is looked up in the
     mask (`has_unique_outside_counterexample`).
220. src/driver.c 361-419: parts of one process that overlap are not recognised as
     a unique driver (`has_unique_overlap_counterexample`).
221. src/rt/wave.c 204-225, 244-257: of arrays of reals, physical values and
     enumerations (such as BOOLEAN_VECTOR) only the first element is written to
     the waveform (`first_only_counterexample`, `all_variables_iff`).
222. src/rt/wave.c 191-202, 632-667: for arrays of arrays of integers the FST
     library reads past the end of the text on the stack
     (`int_nested_counterexample`).
223. src/rt/wave.c 212-222: physical values are taken as unsigned: -616 fs is shown
     as 18446744073709551 ps, and a negative value of a type stored in less than
     eight bytes as a positive one (`physical_negative_iff`,
     `physical_negative_counterexample`, `physical_small_counterexample`).
224. src/rt/wave.c 413-414: character literals and extended identifiers are put in
     lower case, so that 'A' and 'a' are shown as the same
     (`enum_case_counterexample`, `literal_shown_iff`).
225. src/rt/wave.c 1169-1178: a line longer than 1023 characters is read in pieces,
     and the end of a long comment is taken as a name
     (`process_file_long_counterexample`).
226. src/rt/wave.c 943-946, 954-964: the scope in the GTKWave file is wrong after an
     instance with a dot in its (extended) name, and for all packages but the
     first (`leave_enter_iff`, `package_scope_counterexample`).
227. src/rt/printer.c 88-96: integers are read with sign, so a value of a type such
     as `range 0 to 255` from 128 on is shown as a negative number
     (`int_unsigned_type`, `int_byte_counterexample`).
228. src/rt/printer.c 209-226: quotes in a string are not doubled
     (`string_shown_iff`, `string_quote_counterexample`).
229. src/rt/printer.c 163-172, 191-207: enumerations with more than 256 literals
     fail the assertion (`enum_large_counterexample`).
230. src/rt/printer.c 174-189, 284: the literals are asked of the subtype, a fatal
     error if its base type was not shown before (`scalar_fatal_iff`,
     `enum_subtype_counterexample`).
231. src/rt/printer.c 237-251, 260-263: the printer of a base type is freed again for
     each subtype that shares it (`share_double_free`,
     `double_free_counterexample`).
232. src/rt/assert.c 72-73, 153-161: the unit `min` can never be used, since `m` is
     found first (`min_never`, `min_counterexample`).
233. src/rt/assert.c 147-148: a width of 2^31 or more is cut to 32 bits without an
     error (`width_overflow_counterexample`).
234. src/rt/assert.c 392, 535-543: the counts have 32 bits, so after 2^32 errors the
     exit status is that of success (`wrap_counterexample`).
235. src/cov/cov-exclude.c 109, 165: at the end of each round a token is taken and
     then thrown away by the `for`, so of two commands in a line the second is lost
     and its name is reported as an invalid command (`two_commands_counterexample`),
     and one word too many is skipped without a message (`extra_word_counterexample`).
236. src/cov/cov-exclude.c 83: only spaces separate words; a tab makes the line an
     invalid command (`tab_counterexample`).
237. src/cov/cov-exclude.c 119, 147-148: names are changed to upper case, so an
     extended identifier with a small letter cannot be named without a wildcard
     (`extended_counterexample`).
238. src/cov/cov-exclude.c 68, 210: exclusion sets a flag before folding compares the
     flags, so a target that is excluded does not get the count of its source, nor
     does the source of an excluded item count (`fold_excluded_counterexample`).
239. src/cov/cov-exclude.c 342, 388: the same in the specification file: two commands
     in a line end the program with the message that a command must start with `+`
     or `-` (`spec_two_commands_counterexample`).
240. src/cov/cov-export.c 50, 127: the hits of a line are an unsigned sum of 32 bits, so
     a line executed 2^32 times is reported as not executed
     (`hits_wrap_counterexample`).
241. src/cov/cov-export.c 157, 185-186 with src/cov/cov-data.c 386-388: the choices of a
     case statement have `COV_FLAG_CHOICE`, but only `COV_FLAG_TRUE` and
     `COV_FLAG_FALSE` are looked at, so they always have 0 percent
     (`choice_counterexample`).
242. src/cov/cov-export.c 132-137: the outcomes of all branches on a line are merged, so
     two with one outcome each give 100 percent (`two_branches_counterexample`), and a
     line with nothing but branches has no hits (`branch_only_counterexample`).
243. src/cov/cov-export.c 33: the directory is compared as a prefix of characters, so
     `/ab/c` relative to `/a` is shown as `b/c` (`prefix_counterexample`).
244. src/cov/cov-report.c 1143, 1156, 1165: when the limit of printed items is reached,
     `curr_item` is increased by the loop and once more before `continue`, so the next
     item is counted nowhere; a missed item can be lost and 100 percent reported
     (`limit_counterexample`).
245. src/cov/cov-report.c 1239-1241: the hits of the average take the total of functional
     coverage instead of its hits, so the average is right only if all of it is hit
     (`average_iff`, `average_counterexample`).
246. src/cov/cov-report.c 1141, 1154, 1163: the limit is compared with `>`, so each list
     can have one item more than the limit (`report_sound`).
247. src/cov/cov-report.c 1547-1580: in reports for files, items with the same kind,
     location and flags are put together, and the toggle items of the bits of a vector
     are such items; but the first scope of a file is copied as it is, so numbers
     depend on the order of the scopes and a bit that never changes can be hidden
     (`bits_counterexample`).
248. src/rt/standard.c 122-139: the check of formats for TO_STRING of a real looks at
     single characters only, so formats without a conversion like "%" or "%5", which
     are undefined for printf, are accepted, and so is text after the conversion like
     "%fee" (`format_counterexample`).
