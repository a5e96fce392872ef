{"id": "C01", "title": "Unsigned variable-length integers survive a write/read cycle", "statement": "For every 64-bit unsigned value, the bytes emitted by fbuf_put_uint, when read back by fbuf_get_uint with arbitrary further bytes behind them, give back exactly that value and consume exactly the bytes that were emitted. Two different values never have the same encoding and no encoding is a proper prefix of another.", "quantifier": "all 2^64 values and all continuations of the byte stream", "why_tests_cant": "2^64 inputs; a shift or mask that is wrong only for one group of bits (e.g. the tenth byte) passes any sampled test", "anchors": ["src/fbuf.c: fbuf_put_uint, fbuf_get_uint"]}
{"id": "C02", "title": "Signed variable-length integers survive a write/read cycle", "statement": "For every 64-bit signed value, including INT64_MIN, fbuf_get_int applied to the output of fbuf_put_int returns that value and leaves the rest of the stream untouched; small magnitudes of either sign use few bytes.", "quantifier": "all 2^64 signed values and all stream continuations", "why_tests_cant": "sign handling at the extremes of the range is only exercised by specific values", "anchors": ["src/fbuf.c: fbuf_put_int, fbuf_get_int"]}
{"id": "C03", "title": "A library file reads back exactly what was written", "statement": "For every sequence of typed writes to an output file buffer (8/16/32/64-bit words, raw byte strings, variable-length integers, doubles), closing it and opening the file for input yields, for the same sequence of typed reads, the same values, whatever the total length and wherever the internal block boundaries fall, both uncompressed and with the built-in block compressor; and the checksum test at close succeeds.", "quantifier": "all sequences of writes, all values, all positions of the block boundaries relative to the fields", "why_tests_cant": "failures depend on a field straddling or exactly filling a block of 61440 bytes, or on a last block with fewer than 16 bytes; a test has a fixed set of alignments", "anchors": ["src/fbuf.c: fbuf_open, fbuf_maybe_flush, fbuf_close, write_u8..write_raw, read_u8..read_raw, fbuf_decompress_fastlz, fbuf_compress_fastlz"]}
{"id": "C04", "title": "The block compressor is lossless", "statement": "For every byte block of at least one byte that a file buffer can hold, decompressing the compressed form gives back the block exactly, never reports an error, and never reads or writes outside the source and destination buffers.", "quantifier": "all byte strings", "why_tests_cant": "the set of match/literal/far-match/long-run interleavings is unbounded; mistakes live in biases by one at specific match lengths and distances", "anchors": ["thirdparty/fastlz.c: fastlz2_compress, fastlz2_decompress, fastlz_compress_level, fastlz_decompress"]}
{"id": "C05", "title": "The file checksum is Adler-32 and catches any single-byte corruption", "statement": "The checksum of a file equals the mathematical Adler-32 sums of its contents (both sums modulo 65521, without machine overflow) regardless of how the contents are divided into successive update calls and regardless of whether the scalar or the vector implementation runs, and changing any one byte of the contents always changes the checksum.", "quantifier": "all byte strings, all ways of cutting them into update calls, all single-byte changes", "why_tests_cant": "modular reduction is delayed, so overflow shows only for long inputs of large bytes; vector and scalar code agree on short inputs trivially", "anchors": ["src/fbuf.c: adler32_update, checksum_update, checksum_finish, AVX2 variant"]}
{"id": "C06", "title": "Source locations survive a write/read cycle", "statement": "For every sequence of source locations, reading back the sequence written through one writer context through one reader context gives the same line, column, extent and file name for each, including decreasing line numbers, saturated fields and locations without a file, and whatever files the reading process already knows.", "quantifier": "all sequences of locations, all file tables on the reading side", "why_tests_cant": "the encoding is stateful (differences to the previous location), so correctness of one location depends on the whole history", "anchors": ["src/diag.c: loc_write, loc_read, get_loc, loc_file_ref"]}
{"id": "C07", "title": "Identifiers survive a write/read cycle", "statement": "For every sequence of identifiers (including repeated and null ones) written through one identifier writer, the reader returns the same sequence of interned identifiers.", "quantifier": "all sequences of identifiers", "why_tests_cant": "back-references depend on the order of first occurrence over the full history", "anchors": ["src/ident.c: ident_write, ident_read, ident_write_begin, ident_read_begin"]}
{"id": "C08", "title": "Packed JIT code unpacks to the same code", "statement": "For every function representable in the JIT intermediate form, unpacking the packed form reproduces the number of registers, frame size, constant pool, link table and each instruction with its operation, size, condition code, target flag, result register and both operands.", "quantifier": "all instruction sequences and operand values", "why_tests_cant": "the operand encoding is delta- and table-based, so one lost or misread field shifts the rest of the stream; combinations of operand kinds are unbounded", "anchors": ["src/jit/jit-pack.c: jit_pack_encode, pack_func, pack_value, pack_loc, jit_pack_fill, unpack_value, unpack_loc"]}
{"id": "C09", "title": "The event heap is a priority queue", "statement": "After any sequence of insertions, extractions and deletions starting from an empty heap, heap_extract_min returns an element whose key is minimal among the elements currently stored, heap_min/heap_min_key agree with it, and the multiset of (key, value) pairs stored is exactly what was inserted minus what was extracted or deleted.", "quantifier": "all finite sequences of heap operations with arbitrary 64-bit keys (including equal keys and the largest key)", "why_tests_cant": "heap order violations surface only several operations after the faulty one and only for particular key patterns", "anchors": ["src/rt/heap.c: heap_insert, heap_extract_min, heap_min, heap_min_key, heap_size, min_heapify, decrease_key"]}
{"id": "C10", "title": "Deleting from the event heap removes exactly one matching entry", "statement": "heap_delete returns true iff some stored entry satisfies the predicate; in that case exactly one such entry disappears, all others stay with their keys, and the queue remains a valid priority queue.", "quantifier": "all reachable heaps and all predicates", "why_tests_cant": "the replacement element must move either up or down depending on its key; one of the two directions is easily missed by tests", "anchors": ["src/rt/heap.c: heap_delete"]}
{"id": "C11", "title": "Bit masks behave as finite sets", "statement": "Every operation on a bit mask of size n (set, clear, test, test-and-set, range set/clear/test, set all, clear all, population count, backwards scan, clear count, subtract, union, intersect, copy, equality, iteration) has the same result as the corresponding operation on a subset of {0..n-1}, for every n and every sequence of operations.", "quantifier": "all sizes n >= 1 (inline and out-of-line representations), all ranges, all operation sequences", "why_tests_cant": "errors occur at word boundaries and when the range ends exactly on one; sizes and ranges form an unbounded family", "anchors": ["src/mask.c, src/mask.h: all mask_* functions"]}
{"id": "C12", "title": "Pointer hash tables are finite maps", "statement": "After any sequence of hash_put, hash_delete on a table, hash_get of a key returns the value most recently put for it and not since deleted, or NULL; iteration visits each live pair exactly once; every operation terminates.", "quantifier": "all sequences of operations and all hash collisions patterns, tables of initial size at least 4", "why_tests_cant": "probing, tombstones and rehash interact over long histories; collisions depend on addresses", "anchors": ["src/hash.c: hash_new, hash_put, hash_get, hash_delete, hash_iter"]}
{"id": "C13", "title": "Looking up an absent key always terminates", "statement": "Every hash table lookup terminates for any initial size accepted by the constructor, however many keys have been stored.", "quantifier": "all initial sizes, all operation sequences", "why_tests_cant": "non-termination only for completely full tables, reached for specific small initial sizes", "anchors": ["src/hash.c: hash_new, hash_put, hash_get, shash_new, hset_new"]}
{"id": "C14", "title": "String hash tables are finite maps on string contents", "statement": "After any sequence of shash_put and shash_delete, shash_get(k) returns the last value put under a string with the same contents as k and not since deleted, otherwise NULL.", "quantifier": "all operation sequences over all strings, for tables created with a size from 3 to 2^30 (every caller in src does)", "why_tests_cant": "collisions and tombstones over unbounded histories", "anchors": ["src/hash.c: shash_put, shash_get, shash_delete"]}
{"id": "C15", "title": "Integer-keyed hash tables are finite maps, including zero keys and cached lookups", "statement": "After any sequence of ihash_put, ihash_get(k) returns the last value put under k, or NULL when none; the lookup cache never returns a stale value.", "quantifier": "all sequences of puts and gets over 64-bit keys, for tables created with a size from 3 to 2^30 (every caller in src does)", "why_tests_cant": "the one-entry cache makes the result depend on the interleaving of lookups and updates", "anchors": ["src/hash.c: ihash_put, ihash_get"]}
{"id": "C16", "title": "Generic hash tables are finite maps", "statement": "After any sequence of ghash_put and ghash_delete, ghash_get(k) returns the last value put under a key equal to k and not since deleted.", "quantifier": "all operation sequences, all equivalence relations used as key comparison", "why_tests_cant": "needs the key to be put twice and later deleted, with an intervening table growth", "anchors": ["src/hash.c: ghash_put, ghash_get, ghash_delete"]}
{"id": "C17", "title": "Identifier interning is injective and canonical", "statement": "Two calls of ident_new return the same identifier iff the strings are equal, in every history of insertions and table growths; ident_len and istr recover the string.", "quantifier": "all histories of insertions", "why_tests_cant": "table growth and probe chains depend on the whole history of inserted names and their hash collisions", "anchors": ["src/ident.c: ident_new, ident_from_byte_vector, grow_table, copy_table"]}
{"id": "C18", "title": "Identifier table growth terminates", "statement": "Interning a new identifier always terminates whatever identifiers have been interned before.", "quantifier": "all sets of identifiers", "why_tests_cant": "requires an adversarial family of names with equal hash; no realistic test has it", "anchors": ["src/ident.c: ident_from_byte_vector, grow_table, REPROBE_LIMIT"]}
{"id": "C19", "title": "ident_distance is the edit distance", "statement": "ident_distance(a,b) equals the least number of single-character insertions, deletions and substitutions that turn a into b.", "quantifier": "all pairs of identifiers", "why_tests_cant": "minimality over all edit scripts cannot be sampled", "anchors": ["src/ident.c: ident_distance"]}
{"id": "C20", "title": "Glob matching follows the documented wildcard semantics", "statement": "ident_glob(id, pattern) is true iff the identifier can be obtained from the pattern by replacing every * by some (possibly empty) string.", "quantifier": "all identifiers and patterns", "why_tests_cant": "universally quantified over strings and over ways of splitting them", "anchors": ["src/ident.c: ident_glob, ident_glob_walk"]}
{"id": "C21", "title": "numeric_std addition and subtraction accelerators compute modulo 2^n", "statement": "For UNSIGNED/SIGNED operands of any lengths whose elements are all '0','1','L','H', the accelerated \"+\" and \"-\" return the vector of length max(n,m) that encodes the exact sum/difference of the operand values modulo 2^max(n,m); with any other element the result is all 'X'; with a null operand it is a null vector.", "quantifier": "all vector lengths and contents", "why_tests_cant": "the eight-bits-at-a-time path depends on length modulo 8 and carries across chunks; 9^n inputs", "anchors": ["src/jit/jit-intrin.c: ieee_plus_unsigned, ieee_minus_unsigned, ieee_plus_signed, ieee_minus_signed, ieee_plus_unsigned_natural, __ieee_packed_add, __pack_low_bits, __spread_bits, __resize_unsigned, __resize_signed"]}
{"id": "C22", "title": "numeric_std multiplication accelerators compute the exact product", "statement": "For operands of lengths n and m made of '0','1','L','H' the accelerated UNSIGNED and SIGNED \"*\" return the vector of length n+m encoding the exact product; metavalues give all 'X'.", "quantifier": "all vector lengths and contents", "why_tests_cant": "shift-and-add with delayed shifts fails only for particular bit patterns; sign-bit subtraction only for negative multipliers", "anchors": ["src/jit/jit-intrin.c: ieee_mul_unsigned, ieee_mul_signed"]}
{"id": "C23", "title": "numeric_std comparison accelerators agree with the numeric order", "statement": "For operands of any lengths >= 1 consisting of '0','1','L','H' the accelerated <,>,<=,>= on UNSIGNED return the comparison of the encoded natural numbers; with metavalues or null operands they return FALSE (and warn).", "quantifier": "all vector lengths and contents", "why_tests_cant": "differing lengths and leading zeros give an unbounded case split", "anchors": ["src/jit/jit-intrin.c: ieee_unsigned_cmp, ieee_less_unsigned, ieee_greater_unsigned, ieee_less_equal_unsigned, ieee_greater_equal_unsigned"]}
{"id": "C24", "title": "numeric_std conversions from integers encode the integer", "statement": "TO_UNSIGNED(k,n)/TO_SIGNED(k,n) return the n-bit encoding of k modulo 2^n and report truncation iff k does not fit in n bits.", "quantifier": "all integers k and sizes n", "why_tests_cant": "boundary of fit is a different number for every n", "anchors": ["src/jit/jit-intrin.c: ieee_to_unsigned, ieee_to_signed, __to_unsigned, __to_signed"]}
{"id": "C25", "title": "Vector logical accelerators equal the IEEE tables, scalar and SIMD", "statement": "The accelerated vector and/or/xor and the X01 conversions give element by element the IEEE std_logic_1164 table entry, whichever of the scalar, SSE or NEON implementations is selected, for every vector length.", "quantifier": "all vectors over the nine std_ulogic values, all lengths", "why_tests_cant": "SIMD code treats the last partial vector separately; the compressed tables are different from the scalar ones", "anchors": ["src/jit/jit-intrin.c: std_to_x01, ieee and/or/xor vector, __all_01, ieee_to_01"]}
{"id": "C26", "title": "Synopsys arithmetic accelerators interpret operands by their logical value", "statement": "The accelerated std_logic_arith/std_logic_signed comparison treats 'H' as '1' and 'L' as '0' in every position, including when the shorter operand is sign-extended, so equality holds iff the numeric values are equal.", "quantifier": "all vectors", "why_tests_cant": "needs weak values in the sign position together with different lengths", "anchors": ["src/jit/jit-intrin.c: __conv_signed, synopsys_eql_signed"]}
{"id": "C27", "title": "Integer exponentiation is exact or reports overflow", "statement": "The run-time integer power x**y with y >= 0 for a signed machine integer type returns the exact power if it is representable in the type, and reports overflow otherwise.", "quantifier": "all bases and exponents of each integer width", "why_tests_cant": "overflow bookkeeping of repeated squaring is only wrong at exact boundaries ((-2)^63, last squaring overflowing but unused)", "anchors": ["src/jit/jit-interp.c: interp_exp", "src/util.c: ipow_safe, ipow"]}
{"id": "C28", "title": "Run-time integer arithmetic reports overflow exactly when the result is out of range", "statement": "For each integer width and signedness, the add, subtract and multiply operations with overflow checking set the overflow flag iff the mathematical result is outside the range of the type, and otherwise return the mathematical result.", "quantifier": "all operand pairs of all widths", "why_tests_cant": "2^128 pairs at 64 bits", "anchors": ["src/jit/jit-interp.c: interp_add, interp_sub, interp_mul"]}
{"id": "C29", "title": "Building arithmetic with constant folding preserves the program's meaning", "statement": "For every pair of operands, the value produced by the mid-level builder's (possibly folded) arithmetic operation equals the value the unfolded operation computes, and an operation that would trap at run time still traps.", "quantifier": "all operand values, constant or not, and all operations offered by the builder", "why_tests_cant": "each algebraic identity must hold for all values; a wrong identity is invisible unless the specific identity is hit", "anchors": ["src/mir/mir-node.c: mir_build_add, mir_build_sub, mir_build_mul, mir_build_trap_add, mir_build_trap_sub, mir_build_trap_mul, mir_build_div, mir_build_mod, mir_build_rem, mir_build_and, mir_build_or, mir_build_xor, mir_build_not, mir_build_cmp"]}
{"id": "C30", "title": "Integer range analysis is sound", "statement": "Whenever the mid-level IR associates a range with the result of an operation, every value the operation can produce from operands within their ranges lies in that range.", "quantifier": "all ranges and all values in them", "why_tests_cant": "soundness over all value pairs; a wrong sign case is hit only by particular mixed-sign ranges", "anchors": ["src/mir/mir-type.c: mir_stamp_add, mir_stamp_sub, mir_stamp_mul, mir_stamp_div, mir_stamp_rem, mir_stamp_cmp, mir_stamp_union, mir_stamp_cast, mir_stamp_elem"]}
{"id": "C31", "title": "Dominator analysis is exact", "statement": "For every control-flow graph, block j is reported as dominating block i iff every path from the entry to i passes through j.", "quantifier": "all finite control-flow graphs", "why_tests_cant": "graphs with irreducible loops and unreachable blocks form an unbounded family", "anchors": ["src/mir/mir-optim.c: mir_dominator_tree"]}
{"id": "C32", "title": "Copy propagation preserves behaviour", "statement": "For every JIT function whose jump targets are marked, the function after copy propagation performs the same computation step for step: same values written, same branches taken.", "quantifier": "all functions and all initial register contents, all execution lengths", "why_tests_cant": "invalidating stale copies when a register is overwritten depends on arbitrary def/use orders", "anchors": ["src/jit/jit-optim.c: jit_do_cprop"]}
{"id": "C33", "title": "Linear-scan allocation never gives two simultaneously live registers the same slot", "statement": "For every set of live intervals and any number (>= 1) of machine registers, two virtual registers whose intervals overlap are assigned different slots, machine registers outside the allowed set are never used and spill slots are never shared.", "quantifier": "all interval sets and all register masks", "why_tests_cant": "spilling decisions depend on the full set of simultaneously active intervals", "anchors": ["src/jit/jit-optim.c: jit_do_lscan, lscan_grow_range, lscan_shift_active"]}
{"id": "C34", "title": "The case coverage check accepts exactly the complete, non-overlapping choices", "statement": "For a scalar case statement without others, the compiler accepts the choices iff every value of the subtype is covered by exactly one choice.", "quantifier": "all lists of choice ranges in all orders over all integer subtypes", "why_tests_cant": "order-dependent merging of intervals; only some orders of adjacent ranges go wrong", "anchors": ["src/bounds.c: bounds_cover_choice, bounds_check_missing_choices, bounds_check_scalar_case"]}
{"id": "C35", "title": "Projected output waveforms stay ordered and transport assignment follows the LRM", "statement": "After any history of signal assignments and time advances, the pending transactions of a driver are in strictly increasing time order; a transport assignment deletes exactly the pending transactions at or after its first transaction's time and appends the new transaction.", "quantifier": "all histories of assignments with arbitrary delays and all waveforms", "why_tests_cant": "unbounded histories; bugs need particular order of delays", "anchors": ["src/rt/model.c: insert_transaction, sched_driver, update_driver"]}
{"id": "C36", "title": "Inertial assignment follows the LRM pulse rejection rule", "statement": "An inertial assignment with reject limit r keeps exactly the pending transactions that the marking rule of IEEE 1076 clause 10.5.2.2 keeps.", "quantifier": "all pending waveforms, values, delays and reject limits", "why_tests_cant": "depends on runs of equal values in the pending waveform", "anchors": ["src/rt/model.c: insert_transaction"]}
{"id": "C37", "title": "Every pending transaction is going to be applied", "statement": "At any point of any history of assignments and cycles, for every pending transaction of a driver there is a queued wake-up for that driver at exactly the transaction's time, and processing the queue in time order applies each transaction that is still pending at its own time, exactly once.", "quantifier": "all histories of assignments and simulation cycles", "why_tests_cant": "a missing wake-up shows only for a particular sequence of pre-empted and re-issued assignments", "anchors": ["src/rt/model.c: sched_driver, insert_transaction, update_driver, deltaq_insert_driver"]}
{"id": "C38", "title": "Simulation time never goes backwards and phases run in order", "statement": "In every run the sequence of (time, delta) pairs of successive cycles is strictly increasing lexicographically, an event scheduled for a time is processed at that time, and postponed processes run only after the last delta cycle of a time step.", "quantifier": "all event histories", "why_tests_cant": "unbounded interleavings of zero-delay, delayed and postponed activity", "anchors": ["src/rt/model.c: model_cycle, deltaq_insert_proc, deltaq_insert_driver"]}
{"id": "C39", "title": "Splitting a signal's storage preserves its value and structure", "statement": "Splitting a signal's storage unit at any offset yields pieces that tile the original range in order with no gap or overlap, and the current value of every scalar sub-element, as well as of every driver, is unchanged.", "quantifier": "all widths, offsets, element sizes and sequences of splits", "why_tests_cant": "combinations of splits through overlapping slices are unbounded", "anchors": ["src/rt/model.c: split_nexus, split_nexus_slow, clone_nexus, clone_source, split_value"]}
{"id": "C40", "title": "Waiters on a signal are a set", "statement": "sched_event and clear_event on a signal's storage implement adding and removing an element of a set of waiters: after any history each currently sensitive object is notified exactly once per event, others not at all.", "quantifier": "all histories of registrations and removals", "why_tests_cant": "the representation changes between empty, single and array with holes", "anchors": ["src/rt/model.c: sched_event, clear_event, notify_event, wakeup_one"]}
{"id": "C41", "title": "The internal lock guarantees mutual exclusion", "statement": "In every interleaving of any number of threads calling nvc_lock/nvc_unlock (properly paired), at most one thread is between its lock and unlock.", "quantifier": "all numbers of threads and all schedules", "why_tests_cant": "schedules cannot be enumerated by tests", "anchors": ["src/thread.c: nvc_lock, nvc_unlock, thread_park, thread_unpark, lock_park_cb, lock_unpark_cb"]}
{"id": "C42", "title": "The internal lock never loses a wake-up", "statement": "In every reachable state, a thread sleeping for the lock implies that the lock is held with the contended mark set (so its release will broadcast) or that a broadcast for it is already on its way; hence there is no state in which the lock is free and some thread sleeps forever.", "quantifier": "all numbers of threads and all schedules", "why_tests_cant": "needs a specific race between a releasing thread and one going to sleep", "anchors": ["src/thread.c: nvc_lock, nvc_unlock, thread_park, thread_unpark"]}
{"id": "C43", "title": "The work-stealing deque neither loses nor duplicates tasks", "statement": "In every interleaving of one owner (push and pop at the bottom) and any number of thieves (pop at the top) in which no thief is suspended during 2^32 resets of the deque (the width of the tag), every task pushed is returned by at most one pop, when the deque is empty every pushed task has been returned exactly once, and all slot accesses are in bounds; without that restriction a task can be returned twice.", "quantifier": "all numbers of thieves and all schedules", "why_tests_cant": "ABA races need a precise interleaving", "anchors": ["src/thread.c: push_bot, pop_bot, pop_top"]}
{"id": "C44", "title": "The barrier releases no thread before all have arrived", "statement": "In every interleaving of exactly `count` threads repeatedly calling barrier_wait, no thread returns from its k-th call before every thread has started its k-th call, and the barrier is reusable immediately.", "quantifier": "all schedules, all counts, all numbers of rounds", "why_tests_cant": "reuse races depend on scheduling", "anchors": ["src/thread.c: barrier_wait"]}
{"id": "C45", "title": "Garbage collection never frees a reachable object and allocations never overlap", "statement": "For every history of allocations and collections, live allocations occupy disjoint ranges of the heap, an object reachable from the roots through memory (including via interior pointers) is not freed, and unreachable lines are returned to the free list.", "quantifier": "all allocation histories, all object graphs", "why_tests_cant": "reachability over arbitrary graphs and free-list fragmentation histories", "anchors": ["src/rt/mspace.c: mspace_alloc, mspace_gc, mspace_mark_root, mspace_find, mspace_try_alloc"]}
{"id": "C46", "title": "Verilog number literals keep their digits", "statement": "A number object built from a literal of any width and base has, for each bit position, the value given by the literal's digits (with the standard extension rules), and converting it to an integer gives the literal's value when it fits.", "quantifier": "all widths, bases and digit strings, including x and z digits", "why_tests_cant": "three internal representations with different width limits", "anchors": ["src/vlog/vlog-number.c: number_new, number_bit, number_integer, number_width, number_is_defined"]}
{"id": "C47", "title": "PSL guard comparison identifies only equivalent guards", "statement": "Two guards considered the same when edges of a PSL automaton are merged have the same truth value in every cycle; combining guards by and/or/not has the truth-functional meaning, with the absent guard meaning true.", "quantifier": "all guard expressions and all signal valuations", "why_tests_cant": "wrong identification needs two specific distinct compound guards", "anchors": ["src/psl/psl-fsm.c: same_guard, add_edge, or_guard, and_guard, not_guard, build_else_guard"]}
{"id": "C48", "title": "Time values print exactly", "statement": "fmt_time_r prints a time in the largest unit that represents it exactly followed by its delta suffix, so that distinct times print differently and the printed number times its unit is the time.", "quantifier": "all 64-bit times", "why_tests_cant": "unit selection at every power of 1000", "anchors": ["src/rt/model.c: fmt_time_r"]}
{"id": "C49", "title": "Values are copied and compared as byte strings", "statement": "copy_value_ptr, cmp_values and the byte comparison/copy helpers have the effect of memcpy/memcmp on the value's bytes for every size and independent of padding bytes.", "quantifier": "all sizes and contents", "why_tests_cant": "word-sized fast paths and vector tails differ by size", "anchors": ["src/rt/copy.c: _copy2, _cmp_bytes", "src/rt/model.c: copy_value_ptr, cmp_values"]}
{"id": "C50", "title": "JIT liveness analysis is exact", "statement": "For every control-flow graph, a register is reported live into a block iff there is a path from the start of that block to a use of the register without an intervening write.", "quantifier": "all control-flow graphs and instruction sequences", "why_tests_cant": "loops and joins form an unbounded family", "anchors": ["src/jit/jit-optim.c: cfg_liveness"]}
{"id": "C51", "title": "Local value numbering preserves behaviour", "statement": "For every JIT function, the function after local value numbering computes the same results, including the flags read by later conditional instructions.", "quantifier": "all functions and inputs", "why_tests_cant": "requires register reassignment and hash collisions inside one block, or checked arithmetic folded to a move", "anchors": ["src/jit/jit-optim.c: jit_do_lvn, jit_lvn_generic, jit_lvn_add, jit_lvn_mul"]}
{"id": "C52", "title": "Dead code elimination and no-op deletion preserve behaviour", "statement": "For every JIT function, removing instructions whose results are never used, renumbering registers and deleting no-ops (with retargeted jumps) leaves the observable computation unchanged.", "quantifier": "all functions and inputs", "why_tests_cant": "renumbering and label remapping must be consistent across the whole function", "anchors": ["src/jit/jit-optim.c: jit_do_dce, jit_delete_nops"]}
{"id": "C53", "title": "Work queues execute every submitted task exactly once before drain returns", "statement": "For every history of submissions, start and drain of a work queue, every task submitted before start is executed exactly once, and drain does not return before all of them have finished.", "quantifier": "all submissions from any thread and all schedules", "why_tests_cant": "schedule dependent", "anchors": ["src/thread.c: workq_do, workq_start, workq_drain, workq_outstanding, execute_task, globalq_put, globalq_take"]}
{"id": "C54", "title": "Index-to-storage lookup finds the covering storage unit", "statement": "For a signal split into any number of storage units, looking up any sub-element offset returns the unit that contains it, with and without the accelerating index.", "quantifier": "all partitions and offsets, all orders of index construction and splitting", "why_tests_cant": "the index is invalidated and rebuilt at arbitrary points of the history", "anchors": ["src/rt/model.c: lookup_index, build_index, update_index"]}
{"id": "C55", "title": "Small arithmetic helpers are exact", "statement": "next_power_of_2(x) is the least power of two >= x, ilog2(x) is the ceiling of the base-2 logarithm, and the interval helpers saturate instead of wrapping, for every argument in range.", "quantifier": "all 32/64-bit arguments", "why_tests_cant": "boundary at each power of two", "anchors": ["src/util.c: next_power_of_2, ilog2", "src/util.h: saturate_add"]}
{"id": "C56", "title": "Names are split and joined consistently", "statement": "ident_until/ident_from split an identifier at the first occurrence of a character and ident_runtil/ident_rfrom at the last one; joining the two parts with ident_prefix gives the identifier back; the components given by ident_walk_selected contain no dot outside quotes or backslashes and joined with dots give the name back.", "quantifier": "all identifiers and separators", "why_tests_cant": "strings of every length with every placement of separators and quotes", "anchors": ["src/ident.c: ident_until, ident_runtil, ident_from, ident_rfrom, ident_prefix, ident_walk_selected"]}
{"id": "C57", "title": "Case-insensitive comparison follows ISO 8859-1 and agrees with the hash", "statement": "ident_casecmp(a, b) holds iff the upper-case forms of a and b in ISO 8859-1 are equal, whichever implementation is compiled, and identifiers that compare equal have the same ident_casehash.", "quantifier": "all pairs of identifiers, scalar and SSE implementations", "why_tests_cant": "the vector code works on padded blocks of 16 bytes; all lengths and all byte values matter", "anchors": ["src/ident.c: ident_casecmp, ident_casehash, ident_alloc", "src/util.c: toupper_iso88591"]}
{"id": "C58", "title": "Array dimension encoding recovers length, direction and right bound", "statement": "An array of n elements is described by its left bound and by n (ascending) or the complement of n (descending); ffi_array_length, ffi_array_dir and ffi_array_right recover n, the direction and the right bound for every n below 2^63 and every left bound.", "quantifier": "all left bounds, all lengths below 2^63, both directions", "why_tests_cant": "64-bit ranges cannot be enumerated; the sign trick with xor and shift fails only at the edges", "anchors": ["src/jit/jit-ffi.h: ffi_array_length, ffi_array_right, ffi_array_dir"]}
{"id": "C59", "title": "Driving values follow the language rules", "statement": "The driving value of a signal is the default value without sources, the forced value while forced, the deposited value once after a deposit, the value of the connected source of an unresolved signal, and for a resolved signal element by element the resolution function applied to all connected sources, whether or not the function was memoised; a released force has no further effect, and splitting a signal changes none of its driving values.", "quantifier": "all resolution functions, values, numbers and kinds of sources, and all split points", "why_tests_cant": "tables are used only for one or two sources and the chain order of forcing and deposit sources depends on the history", "anchors": ["src/rt/model.c: calculate_driving_value, call_resolution, source_value, memo_resolution_fn, force_signal, release_signal, deposit_signal, clone_source"]}
{"id": "C60", "title": "The control flow graph of the intermediate code covers every transfer of control", "statement": "For every function, the basic blocks cover the instructions without gaps or overlap, their number is the one counted when they are allocated, the binary search returns the block of an instruction, and every step of the interpreter from a reachable state goes to the next instruction of the same block or along one of the edges of the block to the first instruction of another; every edge is one that some instruction of the block can take.", "quantifier": "all non-empty functions whose labels name marked instructions, all environments, all reachable states", "why_tests_cant": "an edge missing for one combination of targets, cases and aborting exits only shows as a wrong liveness much later", "anchors": ["src/jit/jit-optim.c: jit_get_cfg, jit_block_for, cfg_is_terminator, cfg_add_edge", "src/jit/jit-core.c: jit_will_abort"]}
{"id": "C61", "title": "Code with allocated registers behaves like the original", "statement": "For well-formed intermediate code in which the flags are not live across blocks, jit_do_lscan finds intervals that cover the liveness of every register, and running the code with the slots in place of the virtual registers gives the same results, for every environment, initial state and number of steps and every order in which qsort may leave equal intervals.", "quantifier": "all well-formed functions, register masks, executions", "why_tests_cant": "whether two registers clash depends on the control flow between their uses", "anchors": ["src/jit/jit-optim.c: lscan_walk_cfg, lscan_grow_range, jit_do_lscan"]}
{"id": "C62", "title": "Variables put in registers keep their meaning", "statement": "For every function, jit_do_mem2reg replaces the accesses to variables of the frame that it promotes so that running the function gives the same results; no assertion fails, and the variables that stay in the frame are aligned, do not overlap and lie within a frame that is not larger than before.", "quantifier": "all functions with a well-formed frame, all environments, initial states and numbers of steps", "why_tests_cant": "whether an address escapes, or a stored number has too many bits, depends on instructions far from the variable", "anchors": ["src/jit/jit-optim.c: try_promote_allocation, jit_do_mem2reg"]}
{"id": "C63", "title": "Arithmetic is emitted with its meaning, and ranges of registers are right", "statement": "For every expression, what vcode emits (constant folding, reuse of earlier operations, overflow checks left out because of ranges) computes the value of the expression, with an overflow error exactly when there is one; every range attached to a register contains its value at run time; and a range, zero or exponent check that is left out would have succeeded.", "quantifier": "all expressions of integer, physical and boolean operators, all types and ranges of inputs, all values of the inputs", "why_tests_cant": "ranges are combined over whole expressions, and a wrong one only shows when a later check is left out and the value happens to be outside", "anchors": ["src/vcode.c: emit_add_op, emit_sub_op, emit_mul_op, emit_div, emit_rem, emit_mod, emit_trap_exp, emit_neg, emit_trap_neg, emit_abs, emit_logical, emit_cmp, emit_select, emit_cast, emit_const, vtype_clamp_to_repr, vcode_can_elide_bounds", "src/lower.c: lower_arith, lower_check_scalar_bounds"]}
{"id": "C64", "title": "Ordinal numbers in messages have the right ending", "statement": "For every n, ordinal_str(n) is the English ordinal number of n.", "quantifier": "all positive n", "why_tests_cant": "only numbers beyond 20 are affected, of parameters and indexes", "anchors": ["src/util.c: ordinal_str"]}
{"id": "C65", "title": "Removing epsilon edges keeps the meaning of a PSL automaton", "statement": "After the removal of epsilon edges the automaton of a PSL directive has no epsilon edge, and from each state it accepts in the same cycles and moves to the same states under the same valuations as before; no assertion fails.", "quantifier": "all automata whose epsilon edges form no cycle, all states, all valuations of the expressions, all sequences of cycles", "why_tests_cant": "edges are spliced, merged and deleted in place during a depth first search; a lost edge shows only for particular combinations of guards", "anchors": ["src/psl/psl-fsm.c: psl_simplify, psl_simplify_dfs, add_edge, psl_detect_loops"]}
{"id": "C66", "title": "The automaton of a PSL sequence recognises exactly the sequence", "statement": "For a PSL sequence of expressions, concatenations, fusions and repetitions, the automaton that is built recognises exactly those stretches of cycles that the sequence describes.", "quantifier": "all sequences of any size and nesting, all lists of cycles, all valuations of the expressions", "why_tests_cant": "a sequence describes an unbounded set of behaviours; a construction with a wrong edge shows only for particular nestings of operators and particular traces", "anchors": ["src/psl/psl-fsm.c: build_node, build_sere, build_repeat, get_repeat_bounds, build_else_guard, psl_simplify"]}
{"id": "C67", "title": "The parts of a value are at the same, separate and aligned places for everyone", "statement": "Every access of generated code to a part of a value lies inside the value, is aligned and shares no byte with another part; variables of a frame do not overlap; and the layout which reflection, VHPI and the FST writer compute for a type has the same sizes, alignments and offsets as the one the code generator uses.", "quantifier": "all VHDL types of any nesting (scalars, arrays, array subtypes, records, accesses, files) and the types of signals, all fields and elements, all frames", "why_tests_cant": "types are unbounded trees; a wrong offset shows only for particular combinations of field sizes and nestings and only when the data is looked at from outside", "anchors": ["src/jit/jit-layout.c: layout_of, signal_layout_of, count_sub_elements", "src/jit/jit-irgen.c: irgen_align_of, irgen_size_bytes, irgen_op_record_ref, irgen_load_addr, irgen_store_addr, irgen_locals, irgen_append_cpool, irgen_dedup_cpool", "src/lower.c: lower_type, lower_signal_type, dims_for_type, lower_array_const_size"]}
{"id": "C68", "title": "Messages sent over a WebSocket are received whole and in order", "statement": "The frames that ws_send queues are well formed and are given to the socket in order however flushing goes; ws_poll calls the handlers for exactly the messages whose frames have arrived, in order and with the payload that was sent, however the network cuts the bytes; it never leaves its buffers and always comes to an end.", "quantifier": "all sequences of messages with any payloads, masked or not, all ways of cutting the bytes, all interleavings of queueing and flushing; for safety all bytes whatsoever", "why_tests_cant": "the way TCP cuts a stream varies from run to run, and a hostile or merely unusual peer sends frames no test sends", "anchors": ["src/server.c: ws_queue_buf, ws_send, ws_flush, ws_poll", "src/util.h: PACK_BE16, PACK_BE32, PACK_BE64, UNPACK_BE16, UNPACK_BE32, UNPACK_BE64"]}
{"id": "C69", "title": "CXXRTL messages are read and answered one by one and in order", "statement": "cxxrtl_read_message handles exactly the messages that have arrived in whole, in order, whatever the cuts of the network, the answers are queued in the same order, and nothing of one connection reaches another.", "quantifier": "all sequences of messages, all ways of cutting the bytes, all answers; all documents, also ones that are not JSON", "why_tests_cant": "the cuts vary from run to run; a client that sends something else than JSON or disconnects early is not in the test suite", "anchors": ["src/server.c: cxxrtl_read_message, cxxrtl_send, cxxrtl_error, cxxrtl_flush, cxxrtl_new_connection, kill_cxxrtl_connection, cxxrtl_fill_fd_set"]}
{"id": "C70", "title": "Base64 texts and packets of the debug server can be read back", "statement": "base64_encode writes a text which stands for exactly the bytes it was given (RFC 4648), and the fields put into a packet can be read back from its bytes by a reader who knows their kinds; nothing is written outside the packet.", "quantifier": "all byte sequences of any length; all sequences of fields", "why_tests_cant": "all lengths modulo three and all byte values matter and the buffer must grow at every possible place", "anchors": ["src/server.c: base64_encode, pb_grow, pb_pack_u8, pb_pack_u16, pb_pack_u32, pb_pack_u64, pb_pack_bytes, pb_pack_str, pb_pack_ident"]}
{"id": "C71", "title": "Bit string literals have the elements that the standard gives them", "statement": "For every lexeme of a bit string literal, parse_bit_string followed by bit_string_to_literal gives exactly the elements of IEEE 1076-2008 15.8: each digit of base 2, 8 or 16 is replaced by its bits and (since 2008) any other graphic character is repeated; with a length the expanded value is padded or cut on the left if the removed elements allow it, and otherwise there is an error; a decimal literal has the bits of the number, in the given length or without leading zeros; misplaced underscores are reported. For signed literals with a length the code accepts more than the standard.", "quantifier": "all lexemes (any length, sign, base, characters), all standards", "why_tests_cant": "The lengths, the numbers of digits and the values are unbounded; decimal literals of any number of digits are divided by two digit by digit; the tests have two dozen literals and miss the examples of the standard that must be errors.", "anchors": ["src/lexer.l:1076-1102", "src/parse.c:592-747", "src/util.c:1161-1182"]}
{"id": "C72", "title": "Integer literals have the value that the standard gives them", "statement": "For every integer literal of VHDL (decimal, or based with base 2 to 16, with underscores and an exponent) whose value is below 2^63, parse_decimal_literal or parse_based_literal gives the token for an integer with exactly this value and reports nothing; a literal that is out of range is reported; and whatever the scanner hands to these functions that is taken for an integer without a message is a literal of the standard. The last two are false for based literals and the last also for decimal ones: the exact exceptions are proved.", "quantifier": "all lexemes, of any length, all bases, all exponents", "why_tests_cant": "The number of literals has no bound, and the errors are in rare combinations: values at the limit, zero with a negative exponent, underscores next to a separator, a base beyond 32 bits, an exponent so large that the loop does not end in any practical time.", "anchors": ["src/lexer.l:935-948", "src/lexer.l:950-994", "src/lexer.l:996-1051", "src/lexer.l:115-121"]}
{"id": "C73", "title": "Mark bits tell whether an object has been visited", "statement": "object_marked_p(object, generation), which clears its bit array lazily, answers true if and only if it was called before for the same object and generation with no call of another generation in the same arena in between, whatever the memory contained; so in a traversal with its own generation an object is visited exactly once. The second is false for a traversal 65536 after the last one in the arena and for a traversal within another.", "quantifier": "all sequences of calls for all objects of an arena of any size, all contents of uninitialised memory", "why_tests_cant": "The cleared range grows in both directions in any order of calls; the memory is uninitialised; the counter wraps after 65536 traversals.", "anchors": ["src/object.c:135-190", "src/object.c:1064-1067", "src/object.h:124"]}
{"id": "C74", "title": "Freezing an arena keeps exactly what is reachable and packs it", "statement": "When an arena is frozen, object_arena_gc gives a forwarding address to exactly the objects that can be reached from objects of a root kind over references within the arena; the address of each is its offset among the living objects in their order, and live_bytes is their size.", "quantifier": "all arenas (any number of objects, sizes, references, cycles), all classes", "why_tests_cant": "Cyclic graphs of any depth and shape; an object that is lost or an address that is off by one object shows only when the unit is read later.", "anchors": ["src/object.c:426-431", "src/object.c:491-520", "src/object.c:550-612"]}
{"id": "C75", "title": "A design unit that is written to a library and read back is the same", "statement": "If an arena is frozen and written by object_write, then object_read in another process in which the dependencies have been read gives an arena with an image of every living object, with the same kind, location and items, in which every pointer is to the image of what it was to, in this arena or in a dependency; other arenas are not changed and the name of the arena is the same; object_from_locus of object_locus leads to the same object. False if a dependency was analysed in the reading process instead of read.", "quantifier": "all arenas, all classes, all sets of dependencies, all states of the reading process", "why_tests_cant": "Unbounded graphs of objects over several arenas and two processes; the tests write and read units in the same order in fresh processes.", "anchors": ["src/object.c:775-893", "src/object.c:895-1062", "src/object.c:1311-1373", "src/object.c:122-134"]}
{"id": "C76", "title": "Changing the kind of an object", "statement": "object_init finds for every class and every table of allowed changes, after finitely many rounds, the least sizes for which every kind has room for its items and kinds between which an object may change have the same size. With these sizes object_change_kind stays within the object and moves no other object of the arena; lookup_item gives for every item that both kinds have the value that it had, and zero for the items that only the new kind has. Arrays that only the old kind has are freed if the new kind has a later item; by the tables of tree.c that is always so, every item of the four classes has exactly one type, and no change makes or unmakes a root for garbage collection.", "quantifier": "all tables of items and changes whose entries exist, all contents of the object; all entries of the tables in the source", "why_tests_cant": "The tests use the kinds of the parser; a wrong size shows only as a corrupt neighbour for some order of allocation and a lost array not at all.", "anchors": ["src/object.c:287 object_change_kind", "src/object.c:331 object_init", "src/object.h:109 lookup_item", "src/tree.c:28 has_map", "src/tree.c:434 change_allowed"]}
{"id": "C77", "title": "What object_copy copies", "statement": "If no arena depends on itself, the arenas that take part in a copy are those on which the arena of a root depends and which depend on the arena of a root. The search ends; exactly the objects of these arenas are copied that are reached from the roots and are wanted or lead to a wanted object. The copies are different new objects of the global arena, each the image of its original with references to copied objects replaced and all else equal; nothing that there was is changed, and the global arena depends on all frozen arenas to which copies refer.", "quantifier": "all object graphs, roots, predicates and arenas without cyclic dependencies", "why_tests_cant": "Which objects are copied depends on cycles in the graph and the order of the search; a missed object shows only if the original and the copy differ later.", "anchors": ["src/object.c:1069 object_copy_mark", "src/object.c:1124 object_copy_map", "src/object.c:1133 object_copy_root_closure", "src/object.c:1152 object_copy", "src/object.c:222 __object_write_barrier", "src/elab.c:1736 elab_copy_genvar_cb"]}
{"id": "C78", "title": "The concurrent hash table is linearizable", "statement": "The table of hash.c that threads share behaves like one map: every chash_put stores its value at exactly one moment between its call and its return, every chash_get returns the value stored last before some moment between its call and its return (the null pointer if there was none), also while the table is replaced by a larger one; a key that has been stored is never lost, and no assertion fails. For the values and the assertions this needs that no value is overwritten while the table is being copied; otherwise a store can be lost.", "quantifier": "any number of threads, any keys, values, hash function and initial size, any interleaving of their accesses to memory (sequentially consistent), any number of times the table grows", "why_tests_cant": "the interesting interleavings have a few instructions of window on other threads; mtstress.c always stores the same value for a key", "anchors": ["src/hash.c:503 chash_t", "src/hash.c:549 chash_wait_for_resize", "src/hash.c:573 chash_copy_table", "src/hash.c:614 chash_grow_table", "src/hash.c:636 chash_try_put", "src/hash.c:749 chash_try_get"]}
{"id": "C79", "title": "A handle stands for the file or object it was issued for", "statement": "A handle of a file is decoded to the file that was opened with it and not closed since, and any other number to no file; no handle is issued twice and none is 0, as long as at most 65535 files have been opened. Beyond that an open file can get the handle 0 and old handles come back. A handle of a VPI or VHPI object stands for its object as long as it was returned more often than it was released, asking again for the object returns the same handle, otherwise a handle never issued before, and no assertion fails, as long as fewer than 2^32-1 handles have been returned.", "quantifier": "all sequences of opening and closing, of getting and releasing, also of numbers that are no handles", "why_tests_cant": "a stale handle must meet a slot that has been used again; wrapping around needs 65535 openings", "anchors": ["src/rt/fileio.c:88 decode_handle", "src/rt/fileio.c:107 handle_for", "src/rt/fileio.c:145 drop_handle", "src/vpi/vpi-model.c:196 decode_handle", "src/vpi/vpi-model.c:217 handle_for", "src/vpi/vpi-model.c:269 drop_handle", "src/vhpi/vhpi-model.c:588 handle_for"]}
{"id": "C80", "title": "A user-defined primitive follows its table", "statement": "The process that is generated for a Verilog user-defined primitive gives the output that its table gives by the rules of IEEE 1364: of a matching row, a level-sensitive one first, x if none matches. This holds for tables without the symbol b, without edges by letters (refused with a message), without a row of question marks only, with level-sensitive rows first, for inputs without z, and for sequential primitives when some row matches; each of these conditions is needed.", "quantifier": "all tables, all numbers of inputs, all values and changes of the inputs and the output", "why_tests_cant": "a table has rows for many combinations of values and edges; the regression test has one primitive without b", "anchors": ["src/vlog/vlog-udp.c:115 vlog_lower_udp", "src/vlog/vlog-parse.c:3658 p_level_symbol", "src/vlog/vlog-parse.c:3711 p_edge_indicator"]}
{"id": "C81", "title": "Conditional analysis keeps the parts the standard keeps", "statement": "Of a text with conditional analysis directives the parser gets exactly the tokens of the parts whose conditions hold, messages of directives are given exactly in these parts, and there are no errors, for any nesting; conditions have the value that the standard gives them, comparing strings in lexical order. This holds for texts that are well formed, whose expressions have at most one operator at each level and only defined identifiers, and where no token if follows an end without if.", "quantifier": "all texts, all nestings of blocks and parentheses, all values of the identifiers", "why_tests_cant": "blocks nest without limit and each may have any number of parts; tests have a handful of combinations", "anchors": ["src/scan.c:373 pp_cond_analysis_relation", "src/scan.c:451 pp_cond_analysis_expr", "src/scan.c:554 processed_yylex"]}
{"id": "C82", "title": "Code of a function is generated once and seen complete", "statement": "Whatever the interleaving of threads that ask for the code of functions, each function is generated at most once, every call that returns finds the code complete, complete code is not touched again, and the assertion that there is no code yet holds. If the references between units form no cycle and all units exist, every call comes to an end. This holds for functions without code compiled ahead of time; with such code a call can return while the code is being written, and each of the conditions for coming to an end is needed.", "quantifier": "all numbers of threads, all interleavings, all references between units", "why_tests_cant": "the windows are a few instructions wide and need two threads that ask for the same function at the same time", "anchors": ["src/jit/jit-core.c:381 jit_fill_irbuf", "src/jit/jit-irgen.c:2098 irgen_op_var_upref", "src/jit/jit-irgen.c:2673 irgen_op_link_var", "src/jit/jit-irgen.c:4489 jit_irgen"]}
{"id": "C83", "title": "Generated machine code is linked, does not overlap and does not change", "statement": "Whatever the threads do with the code cache, the code of a function whose entry point was stored has exactly the bytes that were emitted for it, one after the other, every jump in it leads to its label, the code lies in a mapped page at a multiple of 256 bytes, has no byte in common with other finished code, with code that a thread is writing or with free memory, and is never changed afterwards. No assertion fails as long as no blob larger than a page is asked for. The unwinder gives the name of the function for each address in its code, except where the address lies in the span left by a blob that was too small: there it can give the name of another function.", "quantifier": "all numbers of threads, interleavings, sequences of emitted bytes, labels and jumps, all addresses of pages", "why_tests_cant": "tests generate few functions and never fill a page or overflow a blob; a wrong displacement or overlap shows up only as a crash elsewhere", "anchors": ["src/jit/jit-code.c:161 code_cache_unwinder", "src/jit/jit-code.c:449 code_blob_new", "src/jit/jit-code.c:506 code_blob_finalise", "src/jit/jit-code.c:570 code_blob_emit", "src/jit/jit-code.c:600 code_blob_mark", "src/jit/jit-code.c:623 code_blob_patch", "src/jit/jit-x86.c:1355 jit_x86_patch"]}
{"id": "C84", "title": "The function compiled by LLVM does what the interpreter does", "statement": "For intermediate code of any shape that cgen_function accepts, the LLVM function that it builds (blocks, phi nodes, values of registers and flags, branches, switches, calls) ends in the same way and with the same effects as the interpreter of the intermediate code, ends only if the interpreter does, and keeps up with it otherwise. Exceptions, each with a counterexample: checked powers whose overflow is not the last one, comparisons of NaN, flags read after an unchecked power, switches on several registers, handles above 2^31; the inlined allocator agrees below 2^31 bytes; trimming of temporary memory has no effect in LLVM code.", "quantifier": "all functions in intermediate code that compile, all starting worlds, all behaviours of the runtime, all lengths of execution", "why_tests_cant": "tests run a few designs with one of the two engines; a wrong phi operand or stale register shows only for one path through one function", "anchors": ["src/jit/jit-llvm.c:1064 cgen_real_pred", "src/jit/jit-llvm.c:1244 cgen_coerce_value", "src/jit/jit-llvm.c:2235 cgen_macro_case", "src/jit/jit-llvm.c:2264 cgen_macro_trim", "src/jit/jit-llvm.c:2325 cgen_ir", "src/jit/jit-llvm.c:2493 cgen_basic_blocks", "src/jit/jit-llvm.c:2516 cgen_frame_anchor", "src/jit/jit-llvm.c:2884 cgen_function", "src/jit/jit-llvm.c:3093 cgen_tlab_alloc_body", "src/jit/jit-llvm.c:3166 cgen_exp_overflow_body", "src/jit/jit-interp.c:886 interp_loop"]}
{"id": "C85", "title": "Merging coverage databases makes the union of their bins", "statement": "Merging any number of coverage databases gives a database with exactly the bins of all of them, each with the saturated sum of its counts, or marked unreachable if any of them is, whatever the order of the files. It is defined for databases in which siblings have distinct names and bins of one scope distinct keys; it ends with a failed assertion if and only if some scope has in the later database first all of its bins of the earlier one and then more. A database that is written is read back as it was.", "quantifier": "all databases of any depth and size, all numbers of files, all orders", "why_tests_cant": "the tests merge a few small designs; the crash needs two designs that differ in one place, and a bin added to the wrong counter shows only in its number", "anchors": ["src/cov/cov-data.c:721 cover_merge_one_item", "src/cov/cov-data.c:1149 cover_merge_scope", "src/cov/cov-data.c:1209 cover_merge_items", "src/cov/cov-data.c:765 cover_write_scope", "src/cov/cov-data.c:1047 cover_read_one_item", "src/cov/cov-data.c:1085 cover_read_scope", "src/nvc.c:1659 coverage merge", "src/util.h:473 saturate_add"]}
{"id": "C86", "title": "The counters of signals, states and expressions count what the manual says", "statement": "For a signal made of std_ulogic by arrays of any dimensions, either no bin is made or two for each element in the order of the elements, and after any simulation each bin holds the number of changes of its element that count as rising or falling under the options, up to the limit, and no other counter changes; comparing eight bytes at a time loses nothing. The bins of an FSM hold how often each state was entered, the first state once more. The bins of a logical operator are exactly the combinations of operands in which an operand matters, exactly the bin of the actual operands is incremented, and a bin is marked unreachable exactly if it can never be incremented.", "quantifier": "all array types, options, histories of the signal of any length, all operators and operands", "why_tests_cant": "the tests have short signals and few changes; a wrong counter for one element past the first eight or one dimension shows only in a report", "anchors": ["src/rt/cover.c:59 cover_toggle_check_0_1", "src/rt/cover.c:151 DEFINE_COVER_TOGGLE_CB", "src/rt/cover.c:222 x_cover_setup_toggle_cb", "src/rt/cover.c:272 cover_state_cb", "src/rt/cover.c:286 x_cover_setup_state_cb", "src/cov/cov-data.c:268 cover_add_toggle_items", "src/cov/cov-data.c:451 cover_add_state_items_for", "src/cov/cov-data.c:494 cover_add_expression_xor_items", "src/lower.c:1771 lower_logical", "src/lower.c:1979 lower_short_circuit"]}
{"id": "C87", "title": "A case statement executes the alternative that its value selects", "statement": "For a case statement over a scalar or over an array of characters whose choices represent no value twice, the blocks of code that are made execute for every value exactly the statements of the alternative whose choice stands for the value, or those of others, or nothing if there is neither, once, count that choice if branch coverage is collected, and go on behind the statement unless the statements leave. This holds with the exact encoding of arrays, which tells all values of one length apart and agrees between compiler and code, and with the hash whatever values collide. The labels of the branch are distinct. The elements of a choice are found in strings, aggregates, constants and slices. The instructions of the JIT for a branch go where the branch goes. A statement with a known value is replaced by the alternative that is selected. The function for a case generate statement yields the number of that alternative.", "quantifier": "all case statements with any number of alternatives and choices, all values, all element types, with and without coverage", "why_tests_cant": "hash collisions, ranges mixed with numbers in one alternative and strings longer than the exact encoding come up in few tests, and a wrong alternative shows only for the value concerned", "anchors": ["src/lower.c:6732 lower_case_scalar", "src/lower.c:6868 lower_case_array", "src/lower.c:12840 lower_case_generate_thunk", "src/common.c:1561 get_case_choice_char", "src/common.c:1657 encode_case_choice", "src/simp.c:890 simp_match_case_choice", "src/simp.c:921 simp_case", "src/simp.c:965 simp_case_generate", "src/vcode.c:5350 emit_case", "src/mir/mir-node.c:1851 mir_build_case", "src/jit/jit-irgen.c:2253 irgen_op_case", "src/jit/jit-interp.c:852 interp_case"]}
{"id": "C88", "title": "Predefined operators of arrays compute what the language defines", "statement": "The functions generated for the relational, shift, logical and matching operators of arrays, for the unary logical operators and for MINIMUM and MAXIMUM end for all operands, read nothing outside of them and give the result of the language reference: the lexicographic order, the equality of arrays and arrays of arrays, the repeated basic shift with the fill of the operator for positive and negative amounts of any size, element-wise logic with a failure if and only if the lengths differ, the results for null arrays, and the tables of STD_ULOGIC.", "quantifier": "all arrays of any length and bounds including null arrays, all shift amounts, all element values, any depth of nesting", "why_tests_cant": "the tests shift only arrays whose two ends are equal, and compare null arrays and matrices of different shape not at all", "anchors": ["src/lower.c:10256 lower_array_cmp_inner", "src/lower.c:10383 lower_predef_array_cmp", "src/lower.c:10523 lower_predef_bit_vec_op", "src/lower.c:10623 lower_predef_mixed_bit_vec_op", "src/lower.c:10693 lower_predef_reduction_op", "src/lower.c:10761 lower_predef_min_max", "src/lower.c:10837 lower_predef_negate", "src/vhdl/vhdl-predef.c:43 predef_bit_shift", "src/vhdl/vhdl-predef.c:201 predef_match_op"]}
{"id": "C89", "title": "Sequential statements are lowered to blocks which do what they say", "statement": "The basic blocks made for the body of a function, procedure or process, with if statements, for, while and plain loops, exit, next, return and wait nested to any depth, end exactly as the statements do: with the same returned value and the same state, at a missing return if and only if the end of a function is reached, for ever if and only if the statements run for ever. They never read a register which has no value or which was lost in a wait, never reuse a temporary variable still in use, and lowering never adds to a finished block.", "quantifier": "all nestings of statements, all conditions, bounds and states, all 32-bit loop ranges including null and extreme ones, executions of any length", "why_tests_cant": "the tests have a few shapes of nesting; the block for next is made on demand, registers are lost at waits and temporary variables are shared, so that errors show up only in combinations", "anchors": ["src/lower.c:6254 lower_sequence", "src/lower.c:6261 lower_if", "src/lower.c:6369 lower_return", "src/lower.c:6490 lower_is_wait_free", "src/lower.c:6514 lower_for", "src/lower.c:6638 lower_while", "src/lower.c:6673 lower_loop", "src/lower.c:6688 lower_loop_control", "src/lower.c:11032 lower_proc_body", "src/lower.c:11059 lower_func_body"]}
{"id": "C90", "title": "Expressions are parsed with the precedence of the language", "statement": "For every sequence of tokens the parsers of VHDL and of Verilog expressions succeed if and only if the sequence is an expression of the grammar, and give it the structure of the grammar, which is unique: the precedence and associativity of all operators, signs, unary operators, conditional expressions, concatenations and parentheses. For VHDL every expression of the 2008 grammar is read with its structure; for Verilog the grammar is that of table 11-2 of IEEE 1800. Every expression tree can be printed and is read back.", "quantifier": "all sequences of tokens of any length, all expression trees of any depth, all texts that follow", "why_tests_cant": "The tests parse a few dozen expressions and look at some of the trees. Whether some combination of operators, signs and parentheses of some depth gets another structure, or is accepted though the grammar forbids it, is a statement about infinitely many token sequences.", "anchors": ["src/parse.c:4649-5047 p_primary p_unary_expression p_factor p_term p_simple_expression p_shift_expression p_relation p_expression", "src/vlog/vlog-parse.c:1130-1443 p_expression and its parts"]}
{"id": "C91", "title": "Verilog operators on four-state values", "statement": "The functions of the package NVC.VERILOG have the values which IEEE Std 1800 gives to the Verilog operators, or differ from them exactly on a stated set of operands: bitwise, logical, reduction, relational and equality operators on vectors with unknown bits, addition and negation, conversions between vectors and integers, the coding and resolution of nets, and the conversion to and from std_ulogic.", "quantifier": "for all four-state vectors of all lengths, all integers, all lists of drivers", "why_tests_cant": "Tests use a few short operands, mostly known and of the same length; the values go wrong for unknown bits, for operands of different lengths and for the order of drivers, in combinations that no finite list of tests covers.", "anchors": ["lib/nvc/verilog-body.vhd:21-74", "lib/nvc/verilog-body.vhd:107-299", "lib/nvc/verilog-body.vhd:301-664", "src/vlog/vlog-lower.c:332-465"]}
{"id": "C92", "title": "Text input and output of values", "statement": "Writing a value adds its text in its field to the line, and reading takes exactly the text of a value after blanks: bits, bit vectors, booleans, integers, characters, strings, octal and hexadecimal digits with underscores, and times; a value that was written is read back with the rest of the line untouched; lines of any length are read from a file as they were written.", "quantifier": "for all lines, values, field widths, sides, texts that follow, and all files", "why_tests_cant": "Tests read a few well-formed lines; signs without digits, values at the limits of the range, underscores, units run together, null lines and buffers of any length are far more combinations than can be listed.", "anchors": ["lib/std/textio-body.vhd:43-293", "lib/std/textio-body.vhd:370-652", "lib/std/textio-body.vhd:676-864"]}
{"id": "C93", "title": "Mangled names identify one subprogram, type or region", "statement": "Two subprograms, types or regions of a design have the same mangled name only if they are the same: the same library, the same enclosing regions and subprograms, the same designator, parameters of the same classes and types, the same result and both predefined or neither. What is computed from such names is right: the context of a call is the enclosing region, the names under which predefined comparisons and FILE_CLOSE are called are those under which they were declared, the copies in an instance are named as if declared there, and different names have different symbols on Windows.", "quantifier": "All libraries, all paths of regions and subprograms of any depth, all identifiers (basic, operator symbols, extended), all profiles, all instance names.", "why_tests_cant": "Names are unbounded strings made of other names; a test tries a few and cannot see that some pair of longer names coincides, and a collision shows only as a call of the wrong body.", "anchors": ["src/common.c:1498", "src/common.c:1529", "src/names.c:2582", "src/names.c:580", "src/names.c:595", "src/lexer.l:921", "src/inst.c:56", "src/lower.c:6342", "src/lower.c:10241", "src/util.c:1995", "src/ident.c:567"]}
{"id": "C94", "title": "Values given as text are read as what they say", "statement": "The function that reads values of generics from the command line and of forced signals accepts exactly the texts for a value of the type and gives that value: arrays of characters with or without quotes, integers with sign and underscores, enumeration literals in letters of either case, and physical values with a unit; white space around them is allowed, anything else is refused, and no text makes it overflow.", "quantifier": "All texts, all enumeration types, all lists of units.", "why_tests_cant": "The set of texts is infinite and most faults are in texts nobody would try: the least integer, -1 of the first unit, a blank, or a type with more than 256 literals.", "anchors": ["src/common.c:256", "src/util.c:1141", "src/util.c:1166", "src/elab.c:1001", "src/rt/shell.c:709"]}
{"id": "C95", "title": "Dates and times of STD.ENV are those of the calendar", "statement": "A record of the package STD.ENV that is the date of a moment in the Gregorian calendar is converted to the seconds since 1970 of that moment, and back; GMTIME, LOCALTIME, EPOCH, the addition of seconds and the difference of records agree with this; values of type TIME and numbers of seconds are converted exactly or with an error; TO_STRING gives the text of ISO 8601; and FILE_NAME and FILE_PATH split the path at the last separator.", "quantifier": "All records in the declared ranges, all numbers of seconds as exact fractions, all offsets of local time, all times, all paths.", "why_tests_cant": "The regression tests only use the current time; leap years, years before 1969 or after 2038, changes of the clocks and each fraction of a second behave differently.", "anchors": ["src/rt/stdenv.c:160", "src/rt/stdenv.c:182", "src/rt/stdenv.c:198", "src/rt/stdenv.c:255", "src/rt/stdenv.c:297", "src/rt/stdenv.c:309", "src/rt/stdenv.c:339", "src/rt/stdenv.c:658", "lib/std.19/env-body.vhd:178", "lib/std.19/env-body.vhd:194"]}
{"id": "C96", "title": "The drivers of signals are found", "statement": "Every signal that a process assigns, or that is associated with an output of an instance or block, is in the set of drivers under its declaration and its process, with the longest static prefix of the name, which covers all elements that the name may denote; nothing else is in the set; a signal is said to have a unique driver only if each of its elements is driven, and by one process.", "quantifier": "All names with any nesting of indexes, slices and fields, all values of static and dynamic indexes, all trees of processes, instances, blocks and generate statements, all shapes of signals and sets of drivers.", "why_tests_cant": "The set decides where the simulator allocates drivers and where it replaces them by direct writes; the tests assign few combinations of names, external names and views, and a lost driver shows only as a missing value.", "anchors": ["src/driver.c:67", "src/driver.c:129", "src/driver.c:175", "src/driver.c:218", "src/driver.c:310", "src/common.c:1829", "src/common.c:2611"]}
{"id": "C97", "title": "Waveform dumps show the values of the signals", "statement": "For every event on a dumped signal the waveform file gets, at the time of the event, a text for each variable of the signal which determines the value of that part: integers in binary, physical values as a number of a unit, literals by name, vectors by their characters; the variables of an array of arrays are named by the indexes of the parts they show; exactly the selected signals are dumped.", "quantifier": "All values of all integer ranges, all sets of units, all literals, all dimensions of arrays, all sequences of events, all lists of included and excluded names.", "why_tests_cant": "The regression tests compare a few dumps; arrays of reals or enumerations, negative physical values and long lines are not in them, and a wrong waveform is only seen by a person.", "anchors": ["src/rt/wave.c:184", "src/rt/wave.c:191", "src/rt/wave.c:210", "src/rt/wave.c:227", "src/rt/wave.c:244", "src/rt/wave.c:260", "src/rt/wave.c:290", "src/rt/wave.c:560", "src/rt/wave.c:585", "src/rt/wave.c:914", "src/rt/wave.c:1161", "src/rt/wave.c:1200"]}
{"id": "C98", "title": "Random numbers are those of MT19937", "statement": "The numbers given by get_random are, in order, the tempered words of the generator MT19937 started with the seed of the option: the first 624 words come from the seed, every later word from the recurrence; the in-place update of the array reads every word in the right generation; no call reads outside the array or fails the assertion; different words give different numbers.", "quantifier": "All seeds, any number of calls.", "why_tests_cant": "A test compares a few numbers for one seed; a mistake in the update of the array in place would show only after 624 calls, and statistical defects are not seen by any test.", "anchors": ["src/rt/random.c:35", "src/rt/random.c:44", "src/rt/random.c:82"]}
{"id": "C99", "title": "The shell shows the values of signals", "statement": "The text shown for a signal says its value: integers in decimal, binary and hexadecimal, physical values in their primary unit, strings as string literals, logic values, bits and enumeration literals by their names, and the texts of vectors determine the vectors; the printer found for a type is that of its base type whatever was asked before; no request is fatal and every printer is freed once.", "quantifier": "All values of all integer types, all strings and vectors, all enumerations, all sequences of requests.", "why_tests_cant": "The shell tests examine a few signals of common types; types with a range from zero, quotes in strings, subtypes of enumerations and the order of requests are not in them.", "anchors": ["src/rt/printer.c:60", "src/rt/printer.c:100", "src/rt/printer.c:114", "src/rt/printer.c:151", "src/rt/printer.c:163", "src/rt/printer.c:191", "src/rt/printer.c:209", "src/rt/printer.c:237", "src/rt/printer.c:253"]}
{"id": "C100", "title": "Messages of assertions are formatted, counted and end the run as they should", "statement": "A format of messages is accepted exactly if it is text and forms of the grammar, and then has the meaning of its forms; asked for and set again it is the same; each replacement is padded to its width on the side asked for and never cut; after any sequence of messages, clears and changes of the mask the count of a severity is the number of its enabled messages since the last clear, the run is ended by exactly the enabled messages of at least the severity for ending, and the exit status says whether there was an error.", "quantifier": "All texts of formats, all widths and texts, all sequences of reports, clears and enables.", "why_tests_cant": "The tests set a few formats and count a few messages; fills with special characters, the order of units in the table, widths beyond 32 bits and long histories are not reached.", "anchors": ["src/rt/assert.c:62", "src/rt/assert.c:93", "src/rt/assert.c:236", "src/rt/assert.c:288", "src/rt/assert.c:384", "src/rt/assert.c:399", "src/rt/assert.c:426", "src/rt/assert.c:513", "src/rt/assert.c:519", "src/rt/assert.c:535"]}
{"id": "C101", "title": "Exclusions from coverage hit exactly what they name", "statement": "A line of the exclude file with one command gives this command, whatever the number of spaces and with any comment after it; an item is excluded exactly if some pattern matches it and it is not covered, with a warning for exactly the patterns that match nothing; folding gives every target the sum, up to the limit, of the sources with its name and flags; a line is left out exactly if the last pragma before it turns coverage off; and a scope is covered as the first matching list of the specification file says.", "quantifier": "All lines, patterns, matching functions, lists of items, lists of pragmas in the order of their lines, and specification files.", "why_tests_cant": "The tests have a few exclude files with one command in each line; several commands in a line, tabs, extended identifiers, and exclusion together with folding are not tried.", "anchors": ["src/cov/cov-exclude.c:33", "src/cov/cov-exclude.c:45", "src/cov/cov-exclude.c:77", "src/cov/cov-exclude.c:173", "src/cov/cov-exclude.c:189", "src/cov/cov-exclude.c:399", "src/cov/cov-data.c:652", "src/cov/cov-data.c:721", "src/cov/cov-data.c:882"]}
{"id": "C102", "title": "The Cobertura report says what the coverage items say", "statement": "A class has one entry for exactly the lines with a statement or branch of its scopes, over all instances; the hits of a line are the executions of its statements, modulo 2^32; it has a branch exactly if an item says so, and an outcome counts exactly if an item with it was taken; the totals are the sums over the classes and no more is covered than there is; a file below the given directory is shown relative to it.", "quantifier": "All sequences of classes and items the walk can give, all counts and flags, all paths.", "why_tests_cant": "The test for the export compares one file of one design; large counts, case choices, several branches on a line and directories with a common prefix do not occur in it.", "anchors": ["src/cov/cov-export.c:29", "src/cov/cov-export.c:70", "src/cov/cov-export.c:87", "src/cov/cov-export.c:114", "src/cov/cov-export.c:147", "src/cov/cov-export.c:164", "src/cov/cov-export.c:206", "src/cov/cov-data.c:379"]}
{"id": "C103", "title": "The numbers of the coverage report are those of the items", "statement": "Below the limit of printed items the total is the number of items, the hits are the items covered, excluded or unreachable, and each item is listed exactly where it belongs, so everything is reported as covered exactly if nothing is missed; with any limit there are no more hits than items and every item counted is listed or counted as skipped; the average is the sum over the kinds; a file has each item once with the sum of its counts over all scopes; and text of the source cannot make markup.", "quantifier": "All limits, lists of constructs, scopes and items, all statistics and characters.", "why_tests_cant": "The tests look for a few lines in reports of small designs, far below the limit, and functional coverage is always hit or not there.", "anchors": ["src/cov/cov-report.c:389", "src/cov/cov-report.c:1020", "src/cov/cov-report.c:1060", "src/cov/cov-report.c:1181", "src/cov/cov-report.c:1221", "src/cov/cov-report.c:1511"]}
{"id": "C104", "title": "Text of bit vectors and times", "statement": "TO_HSTRING and TO_OSTRING give, for a bit vector of any length, a text with the least number of digits that covers the vector, all digits belong to the base, and the text read in the base is the number of the vector; no bit outside the vector is read. A format for TO_STRING of a real is accepted only if it begins with a percent sign and has no other one, so that printf reads nothing but the value. TO_STRING of a time with a unit accepts exactly the units of TIME, and shows a whole number if and only if the time is a multiple of the unit, and then that number of units is the time.", "quantifier": "for all vectors, all bases 2 to 16 that are powers of two, all texts of formats, and all times and units", "why_tests_cant": "vectors have any length and contents, formats any text", "anchors": ["src/rt/standard.c:32-57", "src/rt/standard.c:67-98", "src/rt/standard.c:113-145"]}
