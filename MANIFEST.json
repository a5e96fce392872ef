{
 "claims": [
  {
   "property": "C01",
   "status": "proved",
   "theorems": [
    "Verif.Fbuf.getUint_putUint",
    "Verif.Fbuf.putUint_prefix_free",
    "Verif.Fbuf.putUint_length"
   ],
   "note": "All values below 2^64, any suffix; length and prefix freedom too."
  },
  {
   "property": "C02",
   "status": "proved",
   "theorems": [
    "Verif.Fbuf.getInt_putInt",
    "Verif.Fbuf.zigzag_toNat"
   ],
   "note": "All 64-bit signed values, any suffix; mapping characterised against the arithmetic zig-zag."
  },
  {
   "property": "C03",
   "status": "partial",
   "theorems": [
    "Verif.Fbuf.file_roundtrip",
    "Verif.Fbuf.fastlz_roundtrip_partial",
    "Verif.Fbuf.fastlz_roundtrip_counterexample"
   ],
   "note": "Proved for uncompressed files and for ZSTD (assumed lossless, the default). With the built-in block compressor proved when no raw write exceeds BLOCK_SIZE-15 bytes; for larger writes the code pads in mid-stream and the statement is false (counterexample)."
  },
  {
   "property": "C04",
   "status": "proved",
   "theorems": [
    "Verif.Fastlz.decompress_compress",
    "Verif.Fastlz.compress_length"
   ],
   "note": "Any non-empty byte block, both copy variants of the decompressor; plus a bound on the compressed size."
  },
  {
   "property": "C05",
   "status": "proved",
   "theorems": [
    "Verif.Fbuf.checksum_eq_adler32",
    "Verif.Fbuf.checksum_detects_byte"
   ],
   "note": "Both implementations equal Adler-32 of the whole stream for any split into updates; a one-byte change changes the checksum."
  },
  {
   "property": "C06",
   "status": "proved",
   "theorems": [
    "Verif.Loc.loc_roundtrip",
    "Verif.Loc.getLoc_fits"
   ],
   "note": "Any sequence, any table of files already known to the reader, as long as no more than 65535 files result; every file referenced is known when the file index is written."
  },
  {
   "property": "C07",
   "status": "partial",
   "theorems": [
    "Verif.Ident.ident_roundtrip",
    "Verif.Ident.empty_ident_counterexample",
    "Verif.Ident.generation_counterexample"
   ],
   "note": "Also for several writer contexts that share identifiers. Identifiers are not empty (as ident_new asserts); empty_ident_counterexample shows what happens to an empty one, which ident_from can create. Fewer than 2^31-2 writes. What is missing: contexts are identified by their generation, a 16-bit counter; generation_counterexample shows that an identifier is lost when a generation is given out a second time (after 65535 contexts; there is only an assertion against 0)."
  },
  {
   "property": "C08",
   "status": "partial",
   "theorems": [
    "Verif.Jit.pack_roundtrip_partial",
    "Verif.Jit.pack_counterexample",
    "Verif.Jit.reg_counterexample"
   ],
   "note": "Missing: location operands lose their extent (not stored), must have a file; registers 65533 and 65534 cannot be read back. ZSTD and the file layout are not modelled; function handles and objects are represented by the names and offsets written."
  },
  {
   "property": "C09",
   "status": "proved",
   "theorems": [
    "Verif.Heap.heap_run_refines",
    "Verif.Heap.heap_progress",
    "Verif.Heap.heap_new_zero_counterexample"
   ],
   "note": "Refinement of any operation sequence to a nondeterministic priority-queue specification, plus progress. Heaps created with size 0 are excluded (first insertion writes out of bounds, counterexample theorem)."
  },
  {
   "property": "C10",
   "status": "proved",
   "theorems": [
    "Verif.Heap.heap_delete_spec",
    "Verif.Heap.heap_run_refines"
   ],
   "note": "Any valid heap and predicate."
  },
  {
   "property": "C100",
   "status": "partial",
   "theorems": [
    "Verif.Assert.replacement_iff",
    "Verif.Assert.form_accepted",
    "Verif.Assert.form_sound",
    "Verif.Assert.check_iff",
    "Verif.Assert.min_never",
    "Verif.Assert.min_counterexample",
    "Verif.Assert.get_set",
    "Verif.Assert.width_overflow_counterexample",
    "Verif.Assert.pad_left",
    "Verif.Assert.pad_right",
    "Verif.Assert.pad_middle",
    "Verif.Assert.pad_length",
    "Verif.Assert.value_eq",
    "Verif.Assert.apply_cons",
    "Verif.Assert.run_mask",
    "Verif.Assert.count_correct",
    "Verif.Assert.exit_status_iff",
    "Verif.Assert.exit_status_general",
    "Verif.Assert.wrap_counterexample",
    "Verif.Assert.report_iff",
    "Verif.Assert.failure_ends",
    "Verif.Assert.unit_values",
    "Verif.Assert.precName_shown"
   ],
   "note": "Proved for the grammar (both ways), showing again for widths below 2^31, padding, counting modulo 2^32, ending and exit status below 2^32 messages. False, with counterexamples: the unit min, widths from 2^31, exit status after 2^32 errors. Not modelled: the text of times (floating point), instance paths, the hints."
  },
  {
   "property": "C101",
   "status": "partial",
   "theorems": [
    "Verif.CovEx.comment_ignored",
    "Verif.CovEx.tokens_line",
    "Verif.CovEx.line_exclude",
    "Verif.CovEx.line_fold",
    "Verif.CovEx.line_errors",
    "Verif.CovEx.line_empty",
    "Verif.CovEx.two_commands",
    "Verif.CovEx.two_commands_counterexample",
    "Verif.CovEx.extra_word_counterexample",
    "Verif.CovEx.tab_counterexample",
    "Verif.CovEx.upper_no_lower",
    "Verif.CovEx.upper_letters",
    "Verif.CovEx.extended_counterexample",
    "Verif.CovEx.exclude_item",
    "Verif.CovEx.exclude_iff",
    "Verif.CovEx.exclude_again",
    "Verif.CovEx.exclude_order",
    "Verif.CovEx.not_found_iff",
    "Verif.CovEx.same_iff",
    "Verif.CovEx.fold_items",
    "Verif.CovEx.fold_count",
    "Verif.CovEx.fold_scopes",
    "Verif.CovEx.fold_children",
    "Verif.CovEx.fold_shape",
    "Verif.CovEx.fold_excluded_counterexample",
    "Verif.CovEx.pragma_lines",
    "Verif.CovEx.same_line_counterexample",
    "Verif.CovEx.emit_iff",
    "Verif.CovEx.spec_lines",
    "Verif.CovEx.spec_emit",
    "Verif.CovEx.spec_errors",
    "Verif.CovEx.sel_iff",
    "Verif.CovEx.spec_two_commands_counterexample"
   ],
   "note": "Proved for lines with one command, exclusion, folding of two separate trees of scopes in which the targets have different names, pragmas in order, and specification files with at most one command in a line. Not covered: matching itself (C20), folding a scope into a part of itself, the search for the scopes of a fold command, toggles marked as unreachable. Counterexamples: a second command in a line is lost, a third word is ignored without a message, a tab is not a separator, extended identifiers with small letters cannot be named, an excluded target is not folded."
  },
  {
   "property": "C102",
   "status": "partial",
   "theorems": [
    "Verif.Cobertura.lines_nodup",
    "Verif.Cobertura.line_iff",
    "Verif.Cobertura.line_reported",
    "Verif.Cobertura.hits_wrap_counterexample",
    "Verif.Cobertura.branch_only_counterexample",
    "Verif.Cobertura.classStats_eq",
    "Verif.Cobertura.totals_eq",
    "Verif.Cobertura.totals_le",
    "Verif.Cobertura.percent_iff",
    "Verif.Cobertura.choice_counterexample",
    "Verif.Cobertura.two_branches_counterexample",
    "Verif.Cobertura.class_lines",
    "Verif.Cobertura.walk_root",
    "Verif.Cobertura.walk_class",
    "Verif.Cobertura.no_class",
    "Verif.Cobertura.relative_path",
    "Verif.Cobertura.prefix_counterexample"
   ],
   "note": "Proved for the walk over the scopes, lines, classes, totals, percentages and paths. Not covered: the rates as printed, and the XML. Counterexamples: hits wrap at 2^32; choices of case statements never count as covered; branches on one line are merged; a line with only branches has no hits; a directory need not end at a separator."
  },
  {
   "property": "C103",
   "status": "partial",
   "theorems": [
    "Verif.CovRep.report_exact",
    "Verif.CovRep.full_iff",
    "Verif.CovRep.report_sound",
    "Verif.CovRep.limit_counterexample",
    "Verif.CovRep.zero_threshold",
    "Verif.CovRep.average_iff",
    "Verif.CovRep.average_total",
    "Verif.CovRep.average_counterexample",
    "Verif.CovRep.print_safe",
    "Verif.CovRep.print_inj",
    "Verif.CovRep.file_items",
    "Verif.CovRep.bits_counterexample",
    "Verif.CovRep.nested_exact"
   ],
   "note": "Exact below the limit, also for sums over sub-instances; bounds with any limit; reports for files if no scope has two items with the same kind, location and flags. Refuted beyond the limit, where items are lost (limit_counterexample), for the average, which takes the total of functional coverage for its hits (average_counterexample), and for bits of vectors in reports for files (bits_counterexample). Not covered: the HTML."
  },
  {
   "property": "C104",
   "status": "partial",
   "theorems": [
    "Verif.ToString.to_string_value",
    "Verif.ToString.index_in_bounds",
    "Verif.ToString.format_iff",
    "Verif.ToString.format_safe",
    "Verif.ToString.format_counterexample",
    "Verif.ToString.time_shown"
   ],
   "note": "bit_vec_to_string in full for log_base 1 to 4; the text of times apart from quotients of doubles; of the formats for reals only the check, which accepts formats without a conversion (format_counterexample); TO_STRING of reals with digits is not modelled"
  },
  {
   "property": "C11",
   "status": "proved",
   "theorems": [
    "Verif.Mask.mask_refines_set"
   ],
   "note": "All operations of mask.c/mask.h on any number of masks of any size refine finite sets, for every program whose indices lie in the universe; out-of-bounds accesses and failed assertions are a distinct outcome that is shown unreachable."
  },
  {
   "property": "C12",
   "status": "proved",
   "theorems": [
    "Verif.Hash.hash_refines_map"
   ],
   "note": "hash_t with requested size 3..2^30; sizes 1 and 2 are covered by the C13 counterexamples. Table sizes are unbounded naturals."
  },
  {
   "property": "C13",
   "status": "partial",
   "theorems": [
    "Verif.Hash.lookup_terminates_partial",
    "Verif.Hash.lookup_size1_counterexample",
    "Verif.Hash.lookup_size2_counterexample"
   ],
   "note": "Requested sizes 0, 1 and 2 break the claim; proved for all requested sizes from 3."
  },
  {
   "property": "C14",
   "status": "proved",
   "theorems": [
    "Verif.Hash.shash_refines_map"
   ],
   "note": "shash_t with requested size 3..2^30 (smaller tables can fill up and a lookup then never ends: lookup_size2_counterexample); keys compared by contents."
  },
  {
   "property": "C15",
   "status": "proved",
   "theorems": [
    "Verif.Hash.ihash_refines_map",
    "Verif.Hash.hset_refines_set"
   ],
   "note": "ihash_t including its lookup cache, with requested size 3..2^30; the pointer set hset_t is covered as well, with the same size restriction."
  },
  {
   "property": "C16",
   "status": "partial",
   "theorems": [
    "Verif.Hash.ghash_refines_map_partial",
    "Verif.Hash.ghash_delete_counterexample"
   ],
   "note": "False with ghash_delete (counterexample); proved for all histories without deletion. ghash_delete has no caller in the source."
  },
  {
   "property": "C17",
   "status": "proved",
   "theorems": [
    "Verif.Ident.intern_canonical"
   ],
   "note": "One thread. Both interning functions, any number of growths; strings without zero bytes. The statement is about histories in which every call returns (see C18)."
  },
  {
   "property": "C18",
   "status": "partial",
   "theorems": [
    "Verif.Ident.interning_terminates_partial",
    "Verif.Ident.growth_diverges",
    "Verif.Ident.interning_counterexample"
   ],
   "note": "False in general: growth_diverges and interning_counterexample (21 strings with the same DJB2 hash make the table grow for ever). Proved only for fewer than 20 identifiers."
  },
  {
   "property": "C19",
   "status": "proved",
   "theorems": [
    "Verif.Ident.distance_is_least"
   ],
   "note": "Least length of a sequence of single-character edits."
  },
  {
   "property": "C20",
   "status": "partial",
   "theorems": [
    "Verif.Ident.glob_partial",
    "Verif.Ident.glob_sound",
    "Verif.Ident.glob_counterexample"
   ],
   "note": "False as documented: glob_counterexample. The code implements 'one or more characters' (glob_partial); every match is a match in the documented sense (glob_sound)."
  },
  {
   "property": "C21",
   "status": "proved",
   "theorems": [
    "Verif.Numeric.plus_unsigned",
    "Verif.Numeric.minus_unsigned",
    "Verif.Numeric.plus_signed",
    "Verif.Numeric.minus_signed",
    "Verif.Numeric.plus_unsigned_natural",
    "Verif.Numeric.arith_null",
    "Verif.Numeric.encI_spec"
   ],
   "note": "Values with '0','1','L','H', all lengths, any metavalue gives all 'X'. Buffers are modelled as fresh lists."
  },
  {
   "property": "C22",
   "status": "proved",
   "theorems": [
    "Verif.Numeric.mul_unsigned",
    "Verif.Numeric.mul_unsigned_exact",
    "Verif.Numeric.mul_signed",
    "Verif.Numeric.mul_signed_exact"
   ],
   "note": "Product encoded in n+m elements, and not truncated."
  },
  {
   "property": "C23",
   "status": "proved",
   "theorems": [
    "Verif.Numeric.compare_unsigned"
   ],
   "note": "All four operators; the warning is the case where cmpU gives none."
  },
  {
   "property": "C24",
   "status": "proved",
   "theorems": [
    "Verif.Numeric.to_unsigned",
    "Verif.Numeric.to_signed",
    "Verif.Numeric.to_01",
    "Verif.Numeric.resize_unsigned",
    "Verif.Numeric.resize_signed"
   ],
   "note": "Encoding and exact condition of the truncation warning; also TO_01 and RESIZE."
  },
  {
   "property": "C25",
   "status": "proved",
   "theorems": [
    "Verif.Numeric.logic_vector",
    "Verif.Numeric.logic_vector_length",
    "Verif.Numeric.to_x01",
    "Verif.Numeric.vector_equal",
    "Verif.Numeric.overrun"
   ],
   "note": "Scalar, SSE4.1 and NEON versions, any bytes after the operands; lane semantics of the shuffle instructions is trusted."
  },
  {
   "property": "C26",
   "status": "partial",
   "theorems": [
    "Verif.Numeric.syn_plus_unsigned",
    "Verif.Numeric.syn_plus_signed",
    "Verif.Numeric.syn_minus_unsigned",
    "Verif.Numeric.syn_mul_unsigned",
    "Verif.Numeric.syn_mul_signed",
    "Verif.Numeric.syn_eql_unsigned",
    "Verif.Numeric.syn_eql_signed_partial",
    "Verif.Numeric.syn_eql_signed_counterexample"
   ],
   "note": "The arithmetic accelerators are correct. Equality of signed vectors is wrong when a shorter operand begins with a weak value (counterexample); proved otherwise."
  },
  {
   "property": "C27",
   "status": "partial",
   "theorems": [
    "Verif.Util.ipow_safe_exact",
    "Verif.Code.exp_exact_partial",
    "Verif.Code.exp_truncated_counterexample",
    "Verif.Code.exp_endless_counterexample"
   ],
   "note": "ipow_safe at 64 bits, and the power instruction for every width and signedness, are exact or report overflow for every exponent of the type of the base; missing: larger exponents, which are truncated by the code (counterexamples: wrong result without overflow, endless loop)"
  },
  {
   "property": "C28",
   "status": "proved",
   "theorems": [
    "Verif.Code.arith_exact",
    "Verif.Code.arith_holds",
    "Verif.Code.arith_plain",
    "Verif.Code.compare_exact",
    "Verif.Code.division_exact"
   ],
   "note": "add, subtract and multiply with check, for all widths, signed and unsigned; the operands stand for numbers of the type in their low bits; without check exact or undefined"
  },
  {
   "property": "C29",
   "status": "partial",
   "theorems": [
    "Verif.Mir.build_correct_partial",
    "Verif.Mir.irgenMod_correct",
    "Verif.Mir.build_sub_counterexample",
    "Verif.Mir.build_trap_sub_counterexample",
    "Verif.Mir.build_square_counterexample",
    "Verif.Mir.build_trap_mul_counterexample",
    "Verif.Mir.build_trap_mul_stamp_counterexample",
    "Verif.Mir.build_trap_add_counterexample",
    "Verif.Mir.build_select_counterexample",
    "Verif.Mir.build_rem_counterexample",
    "Verif.Mir.build_cast_counterexample",
    "Verif.Mir.build_int64_min_counterexample"
   ],
   "note": "All integer operations of the builder are modelled: for every expression whose construction meets none of the wrong foldings (listed in Sound1, Sound2, SoundSelect), and all parameter values within their ranges, running the built nodes gives the value of the expression or its trap. The wrong foldings are counterexamples: 0-x becomes x, trapping multiplication is built as a subtraction, trapping folds ignore the width, comparisons folded from wrong stamps of selections, remainders and casts, and division of INT64_MIN in the builder. Not modelled: reals, several blocks."
  },
  {
   "property": "C30",
   "status": "partial",
   "theorems": [
    "Verif.Mir.stampAdd_sound",
    "Verif.Mir.stampSub_sound",
    "Verif.Mir.stampMul_sound",
    "Verif.Mir.stampCmp_sound",
    "Verif.Mir.stampCmp_exact",
    "Verif.Mir.stampRem_sound_partial",
    "Verif.Mir.stampRem_counterexample",
    "Verif.Mir.stampUnion_sound_partial",
    "Verif.Mir.stampUnion_counterexample",
    "Verif.Mir.stampCast_sound_partial",
    "Verif.Mir.stampCast_counterexample",
    "Verif.Mir.stampCast_assert_counterexample",
    "Verif.Mir.stamp_valid",
    "Verif.Mir.stamp_least",
    "Verif.Mir.stampConst_sound",
    "Verif.Mir.build_stamps_partial",
    "Verif.Mir.stampCast_exact"
   ],
   "note": "Sound for addition, subtraction, multiplication, comparison and single-value stamps; sums, differences, products and selections get the least range; ranges are well formed. Remainder, selection and cast are sound only under the stated condition, with counterexamples otherwise. Not modelled: ranges of reals, pointer stamps."
  },
  {
   "property": "C31",
   "status": "proved",
   "theorems": [
    "Verif.Dom.dominators_graph",
    "Verif.Dom.dominators_exact",
    "Verif.Dom.getCfg_sem",
    "Verif.Dom.getCfg_some",
    "Verif.Dom.addEdge_get",
    "Verif.Dom.dominators_exact_partial",
    "Verif.Dom.getCfg_case_counterexample"
   ],
   "note": "For every finite control flow graph the loop ends, and bit j of block i is set exactly when every path from an entry to i passes through j (unreachable blocks have all bits). With several entries (blocks after a wait) an entry is dominated by itself only. The graph built from the terminators has exactly their entries and edges; the edge list keeps any number of edges. The builder of the graph fails an assertion on a case with two choices (counterexample)."
  },
  {
   "property": "C32",
   "status": "partial",
   "theorems": [
    "Verif.Code.cprop_correct_partial",
    "Verif.Code.cprop_shape",
    "Verif.Code.cprop_accepted_partial",
    "Verif.Code.cprop_stale_counterexample",
    "Verif.Code.cprop_kinds_counterexample",
    "Verif.Code.dce_marked"
   ],
   "note": "identical states after every number of steps for any world; missing: functions that move register-relative addresses, for which the property is false (counterexample); that operands stay of a kind the interpreter handles needs conditions (counterexample)"
  },
  {
   "property": "C33",
   "status": "proved",
   "theorems": [
    "Verif.Code.alloc_correct",
    "Verif.Code.alloc_no_spill",
    "Verif.Code.alloc_no_register_counterexample"
   ],
   "note": "Any sorted list of intervals of different registers (qsort need not be stable), any non-empty set of allowed machine registers. Also: nothing is spilled if no position is in more intervals than there are machine registers. Without a machine register the code reads active[-1] (counterexample; x86 always allows two)."
  },
  {
   "property": "C34",
   "status": "partial",
   "theorems": [
    "Verif.Bounds.accepts_iff",
    "Verif.Bounds.case_disjoint_partial",
    "Verif.Bounds.case_ascending_partial",
    "Verif.Bounds.duplicate_counterexample",
    "Verif.Bounds.size_counterexample",
    "Verif.Bounds.null_counterexample"
   ],
   "note": "Exact acceptance condition; complete and sound when no value is in two choices, and for choices in ascending order (no null ranges, fewer than 2^32 values). False in general: duplicate after an adjacent merge, 32-bit count of missing values, null ranges."
  },
  {
   "property": "C35",
   "status": "partial",
   "theorems": [
    "Verif.Sim.waveform_ordered_partial",
    "Verif.Sim.transport_partial",
    "Verif.Sim.null_counterexample"
   ],
   "note": "Order holds for all histories of assignments, disconnections and cycles except disconnections taking effect at time zero or made while a fast update is queued. The transport rule holds for waveforms without null transactions; with one it is false (null_counterexample)."
  },
  {
   "property": "C36",
   "status": "partial",
   "theorems": [
    "Verif.Sim.inertial_partial",
    "Verif.Sim.inertial_suffix_partial",
    "Verif.Sim.inertial_counterexample"
   ],
   "note": "The rule as stated is false (inertial_counterexample). Proved for all reachable waveforms without null transactions: what the standard keeps is always kept, and an exact criterion for equality."
  },
  {
   "property": "C37",
   "status": "partial",
   "theorems": [
    "Verif.Sim.pending_covered_partial",
    "Verif.Sim.cycle_applies_partial",
    "Verif.Sim.assign_log",
    "Verif.Sim.disconnect_counterexample",
    "Verif.Sim.null_zero_counterexample",
    "Verif.Sim.fast_value_counterexample"
   ],
   "note": "For all histories without a disconnection at time zero or while a fast update is queued; those two cases are counterexamples."
  },
  {
   "property": "C38",
   "status": "partial",
   "theorems": [
    "Verif.Sim.Cycle.time_advances",
    "Verif.Sim.Cycle.cycle_idle",
    "Verif.Sim.Cycle.reach_idle",
    "Verif.Sim.Cycle.due_run",
    "Verif.Sim.Cycle.run_due",
    "Verif.Sim.Cycle.future_kept",
    "Verif.Sim.Cycle.postponed_kept",
    "Verif.Sim.Cycle.once_cycle",
    "Verif.Sim.Cycle.runs_once",
    "Verif.Sim.Cycle.pending_when_run",
    "Verif.Sim.Cycle.postponed_last_partial",
    "Verif.Sim.Cycle.postponed_phase_partial",
    "Verif.Sim.Cycle.timeout_counterexample",
    "Verif.Sim.Cycle.zero_wait_counterexample"
   ],
   "note": "Time, events and queues for every behaviour of processes, drivers and callbacks; no process is queued or run twice in a cycle. Missing: postponed processes must not wait for a time (counterexamples); driving and effective value propagation is abstracted to the jobs of the driver queue."
  },
  {
   "property": "C39",
   "status": "proved",
   "theorems": [
    "Verif.Sim.Nexus.always_covered",
    "Verif.Sim.Nexus.split_exact",
    "Verif.Sim.Nexus.split_boundaries",
    "Verif.Sim.Nexus.values_kept",
    "Verif.Sim.Nexus.split_value_parts",
    "Verif.Sim.Nexus.element_address"
   ],
   "note": "splitting through any sequence of requests: tiling, exact ranges, only the requested boundaries, bytes of stored values and addresses of elements kept. Ports and conversion functions not modelled. Which sources are connected is in C59 (counterexample there)."
  },
  {
   "property": "C40",
   "status": "partial",
   "theorems": [
    "Verif.Sim.Pending.notified_once_partial",
    "Verif.Sim.Pending.never_missed",
    "Verif.Sim.Pending.in_bounds",
    "Verif.Sim.Pending.twice_counterexample"
   ],
   "note": "For every history in the form that wait statements and watches produce; missing: adding an object again after others were removed duplicates it (counterexample)."
  },
  {
   "property": "C41",
   "status": "proved",
   "theorems": [
    "Verif.Thread.Lock.mutual_exclusion",
    "Verif.Thread.Lock.one_owner",
    "Verif.Thread.Lock.asserts_hold"
   ],
   "note": "Any number of threads and locks, any assignment of locks to parking bays, sequentially consistent steps. The owner is computed from the trace of lock and unlock returns."
  },
  {
   "property": "C42",
   "status": "proved",
   "theorems": [
    "Verif.Thread.Lock.no_lost_wakeup",
    "Verif.Thread.Lock.release_broadcasts",
    "Verif.Thread.Lock.broadcast_wakes",
    "Verif.Thread.Lock.no_deadlock",
    "Verif.Thread.Lock.asserts_hold"
   ],
   "note": "Condition variables may wake spuriously. no_deadlock: if a thread is inside lock or unlock then it sleeps for a lock that somebody has, or some thread can take a step."
  },
  {
   "property": "C43",
   "status": "proved",
   "theorems": [
    "Verif.Thread.Deque.no_duplicates",
    "Verif.Thread.Deque.none_lost",
    "Verif.Thread.Deque.pop_false",
    "Verif.Thread.Deque.in_bounds",
    "Verif.Thread.Deque.wrap_counterexample",
    "Verif.Thread.Deque.steal_alone"
   ],
   "note": "Prompt: a thief about to compare and swap read the age fewer than 2^32 resets ago; wrap_counterexample shows that this is needed. Task copies are not atomic in the model."
  },
  {
   "property": "C44",
   "status": "proved",
   "theorems": [
    "Verif.Thread.Barrier.barrier_safe",
    "Verif.Thread.Barrier.barrier_progress",
    "Verif.Thread.Barrier.barrier_releases"
   ],
   "note": "Any number of threads and rounds; sequentially consistent steps."
  },
  {
   "property": "C45",
   "status": "proved",
   "theorems": [
    "Verif.Gc.allocations_apart",
    "Verif.Gc.never_faults",
    "Verif.Gc.gc_keeps",
    "Verif.Gc.gc_frees",
    "Verif.Gc.gc_exact",
    "Verif.Gc.alloc_after_gc",
    "Verif.Gc.alloc_keeps",
    "Verif.Gc.alloc_out_of_memory",
    "Verif.Gc.find_correct",
    "Verif.Gc.tlab_apart",
    "Verif.Gc.tlab_variants",
    "Verif.Gc.alloc_wrap_counterexample",
    "Verif.Gc.gc_margin_counterexample",
    "Verif.Gc.tlab_llvm_counterexample",
    "Verif.Gc.tlab_wrap_counterexample"
   ],
   "note": "All histories of allocations and collections on a heap whose number of lines is not a multiple of 64 (the default sizes); sizes below 2^64-32. Allocations in use never overlap, not even one past the end; a collection keeps everything reachable, frees exactly the rest, never faults and ends; an allocation fails only if no run of free lines is long enough. Thread-local buffers in three variants. Counterexamples: size wrap, pointers into the margin, truncation to 32 bits in emitted code."
  },
  {
   "property": "C46",
   "status": "partial",
   "theorems": [
    "Verif.Vlog.new_integer",
    "Verif.Vlog.new_unsigned",
    "Verif.Vlog.new_big",
    "Verif.Vlog.stdBit_eq",
    "Verif.Vlog.new_big_integer",
    "Verif.Vlog.new_small_lost",
    "Verif.Vlog.pack_bit",
    "Verif.Vlog.read_write",
    "Verif.Vlog.write_signed_counterexample",
    "Verif.Vlog.new_bit_counterexample",
    "Verif.Vlog.new_small_counterexample",
    "Verif.Vlog.new_extend_counterexample",
    "Verif.Vlog.new_reject_counterexample",
    "Verif.Vlog.new_prefix_counterexample",
    "Verif.Vlog.new_saturate_counterexample",
    "Verif.Vlog.new_truncate_counterexample",
    "Verif.Vlog.pack_counterexample"
   ],
   "note": "Proved for integers of up to 32 bits in all bases, for binary and hexadecimal literals whose width is a multiple of 32 (with x and z), for packing of signal values, and for library files. Elsewhere the property is false in the code: new_small_lost proves that literals with x or z of up to 31 bits never have a 1 or z, and the counterexamples cover widths that are no multiple of 32, extension of x, underscores, decimal widths above 32, the prefix 0X, saturation and truncation."
  },
  {
   "property": "C47",
   "status": "partial",
   "theorems": [
    "Verif.Psl.and_true",
    "Verif.Psl.or_true",
    "Verif.Psl.or_null",
    "Verif.Psl.not_true",
    "Verif.Psl.not_defined",
    "Verif.Psl.else_true",
    "Verif.Psl.else_defined",
    "Verif.Psl.lower_true",
    "Verif.Psl.lower_defined",
    "Verif.Psl.test_true",
    "Verif.Psl.makeBinop_plain",
    "Verif.Psl.else_plain",
    "Verif.Psl.sameGuard_eq",
    "Verif.Psl.same_true",
    "Verif.Psl.same_repaired",
    "Verif.Psl.addEdge_reaches",
    "Verif.Psl.addEdge_simple",
    "Verif.Psl.or_true_counterexample",
    "Verif.Psl.else_defined_counterexample",
    "Verif.Psl.test_true_counterexample",
    "Verif.Psl.same_true_counterexample",
    "Verif.Psl.addEdge_counterexample"
   ],
   "note": "Conjunction, negation, default guards, their code and the merging of edges are verified; disjunction for guards that are present, comparison unless both guards are compound. The program takes all compound guards for the same (same_true_counterexample, addEdge_counterexample) and weakens the disjunction with an absent guard (or_true_counterexample); the one word repair is verified."
  },
  {
   "property": "C48",
   "status": "proved",
   "theorems": [
    "Verif.TimeText.fmtTime_read",
    "Verif.TimeText.unitOf_spec",
    "Verif.TimeText.fmtTime_injective",
    "Verif.TimeText.fmtTimeR_fits",
    "Verif.TimeText.readNumber_decimal",
    "Verif.TimeText.fmtTimeR_iff"
   ],
   "note": "For all times of 64 bits: the chosen unit is the largest one of the table that divides the time, the text can be read back to the time (so distinct times print differently), and the buffers of 32 bytes suffice. The number conversion of printf is modelled. The delta cycle is printed by the callers with %d."
  },
  {
   "property": "C49",
   "status": "partial",
   "theorems": [
    "Verif.Sim.Copy.copy2_spec",
    "Verif.Sim.Copy.cmp_spec",
    "Verif.Sim.Copy.copy_value_contents",
    "Verif.Sim.Copy.cmp_values_partial",
    "Verif.Sim.Copy.cmp_values_sound",
    "Verif.Sim.Copy.cmp_values_counterexample"
   ],
   "note": "copy2 and cmp_bytes exact; cmp_values exact from 8 bytes on, sound below, but equal small values may compare unequal (counterexample)"
  },
  {
   "property": "C50",
   "status": "partial",
   "theorems": [
    "Verif.Code.liveness_exact_partial",
    "Verif.Code.liveness_sound",
    "Verif.Code.liveness_enough_partial",
    "Verif.Code.liveness_chain_counterexample",
    "Verif.Code.liveness_abort_counterexample"
   ],
   "note": "Proved for registers and flags over the graph built by the code, with paths defined on single instructions, and that states agreeing on what is reported run alike. Missing: flags read by a combining comparison at the start of a block are not reported (liveness_chain_counterexample), hence ChainsOk; after an exit that ends the function the rest of its block is scanned (liveness_abort_counterexample), hence AbortEnds for exactness; liveness_sound needs neither."
  },
  {
   "property": "C51",
   "status": "partial",
   "theorems": [
    "Verif.Code.lvn_correct_partial",
    "Verif.Code.lvn_halts_partial",
    "Verif.Code.romEnv_laws",
    "Verif.Code.lvn_checked_counterexample",
    "Verif.Code.lvn_unsigned_counterexample",
    "Verif.Code.lvn_memset_counterexample",
    "Verif.Code.lvn_exp_counterexample",
    "Verif.Code.lvn_table_counterexample",
    "Verif.Code.lvn_send_counterexample"
   ],
   "note": "False for the code as it is, six functions whose result changes are given (checked arithmetic folded to a move leaves stale flags, unsigned subtraction folded with the signed range, memset of a negative number, 2**n with the 2 in a register, a stale entry of the hash table found for a reassigned register, a send that is dropped). Proved otherwise: lvn_correct_partial and lvn_halts_partial show that the pass keeps the state at every step and the end of every function for which each register has one definition that comes before its uses in straight code, no argument is received or resent after a send without a call between, labels are marked, and no checked add/sub/mul/exp, power of a register or negative memset is folded; constant folding, algebraic rules, value numbering with the hash table, known flags, jump threading and the memory rewritings are covered. The environment is arbitrary with laws that a flat memory with a read-only constant pool satisfies (romEnv_laws)."
  },
  {
   "property": "C52",
   "status": "partial",
   "theorems": [
    "Verif.Code.dce_correct_partial",
    "Verif.Code.dce_start",
    "Verif.Code.dce_regs_lt",
    "Verif.Code.dce_fault_counterexample",
    "Verif.Code.deleteNops_forward",
    "Verif.Code.deleteNops_backward",
    "Verif.Code.deleteNops_marked",
    "Verif.Code.deleteNops_none",
    "Verif.Code.passes_end_partial"
   ],
   "note": "dead code: same position, world and end after every number of steps that the original does without a fault, for any world, with new register numbers injective; no-ops: the same runs in both directions including faults, targets stay marked; the passes together. Missing: unused allocations (removed by the code, which changes the heap) and faults of removed instructions (counterexample)"
  },
  {
   "property": "C53",
   "status": "proved",
   "theorems": [
    "Verif.Thread.Workq.drain_all",
    "Verif.Thread.Workq.never_twice",
    "Verif.Thread.Workq.idle_none",
    "Verif.Thread.Workq.drain_returns",
    "Verif.Thread.Workq.assertions",
    "Verif.Thread.Globalq.put_appends",
    "Verif.Thread.Globalq.take_front"
   ],
   "note": "Transition system of any number of threads that submit, give out, take, steal and execute tasks, for all schedules, with several work queues and asynchronous tasks abstracted to 'other' tasks. drain_all: when workq_drain returns, every task was called and has finished as often as it was submitted. never_twice: at any time no task was called more often than submitted. idle_none: outside of start..drain no task of the queue runs. drain_returns: no deadlock; from every state after workq_start there is a way to the end of workq_drain. assertions: the assertions of workq_start and workq_outstanding hold. put_appends/take_front: the array under the global queue is a FIFO queue without access out of bounds. Trusted: sequentially consistent memory, atomic deque operations (C43), unbounded epochs and counts, workq_do as one step."
  },
  {
   "property": "C54",
   "status": "proved",
   "theorems": [
    "Verif.Sim.Nexus.lookup_covers",
    "Verif.Sim.Nexus.index_irrelevant"
   ],
   "note": ""
  },
  {
   "property": "C55",
   "status": "partial",
   "theorems": [
    "Verif.Util.next_power_of_2_spec",
    "Verif.Util.next_power_of_2_zero_counterexample",
    "Verif.Util.ilog2_spec",
    "Verif.Util.ilog2_large_counterexample",
    "Verif.Util.saturate_add_unsigned",
    "Verif.Util.saturate_add_signed_partial",
    "Verif.Util.saturate_add_signed_counterexample"
   ],
   "note": "next_power_of_2 for 1..2^30, ilog2 up to 2^62, unsigned saturation; the signed saturation and the arguments 0 and above 2^62 fail."
  },
  {
   "property": "C56",
   "status": "proved",
   "theorems": [
    "Verif.Ident.until_from_spec",
    "Verif.Ident.until_from_absent",
    "Verif.Ident.runtil_rfrom_spec",
    "Verif.Ident.prefix_split",
    "Verif.Ident.walkSelected_components",
    "Verif.Ident.walkSelected_exact"
   ],
   "note": "Separator different from the zero character."
  },
  {
   "property": "C57",
   "status": "partial",
   "theorems": [
    "Verif.Ident.casecmp_ascii_partial",
    "Verif.Ident.casehash_consistent",
    "Verif.Ident.casecmp_counterexample"
   ],
   "note": "Hash consistency is proved for all bytes and both implementations. The comparison itself is proved for ASCII only; on x86-64 letters above 127 are not folded (casecmp_counterexample)."
  },
  {
   "property": "C58",
   "status": "proved",
   "theorems": [
    "Verif.Numeric.ffi_bounds"
   ],
   "note": "64-bit machine arithmetic; the right bound modulo 2^64."
  },
  {
   "property": "C59",
   "status": "partial",
   "theorems": [
    "Verif.Sim.Driving.drive_no_sources",
    "Verif.Sim.Driving.drive_resolved",
    "Verif.Sim.Driving.drive_resolved_none",
    "Verif.Sim.Driving.drive_unresolved",
    "Verif.Sim.Driving.drive_register",
    "Verif.Sim.Driving.drive_forced_partial",
    "Verif.Sim.Driving.drive_deposit",
    "Verif.Sim.Driving.force_sets",
    "Verif.Sim.Driving.release_restores",
    "Verif.Sim.Driving.split_drive_partial",
    "Verif.Sim.Driving.deposit_over_force_counterexample",
    "Verif.Sim.Driving.split_reconnects_counterexample"
   ],
   "note": "false in two cases, both with counterexample: a deposit on a forced signal overrides the force if the deposit source is older, and splitting reconnects disconnected sources (a released force comes back)"
  },
  {
   "property": "C60",
   "status": "proved",
   "theorems": [
    "Verif.Code.cfg_ok",
    "Verif.Code.cfg_block_for",
    "Verif.Code.cfg_covers_run",
    "Verif.Code.cfg_edges_exact",
    "Verif.Code.will_abort_exact"
   ],
   "note": "Hypotheses: the function is not empty, labels name instructions that are marked as targets, and exits taken never to return do not."
  },
  {
   "property": "C61",
   "status": "partial",
   "theorems": [
    "Verif.Code.lscan_correct_partial",
    "Verif.Code.walk_covers",
    "Verif.Code.lscan_flags_counterexample"
   ],
   "note": "End-to-end over the model of CFG, liveness, interval construction and allocation. Missing: needs well-formed code (labels marked, registers in range, aborting exits end a block, a combining comparison follows another one) and flags that are not live at the start of a block; otherwise lscan_walk_cfg writes outside its array (counterexample). The machine code that uses the slots is not modelled."
  },
  {
   "property": "C62",
   "status": "partial",
   "theorems": [
    "Verif.Code.mem2reg_correct_partial",
    "Verif.Code.mem2reg_frame",
    "Verif.Code.mem2reg_escape_counterexample",
    "Verif.Code.mem2reg_narrow_counterexample"
   ],
   "note": "Proved: lockstep simulation of the promoted function for all variables at once (mem2reg_correct_partial) and the layout of the frame without assumptions on its use (mem2reg_frame). Assumed in the simulation: the address of a promoted variable is not stored elsewhere and stored numbers fit in the variable; the code checks neither, and the counterexamples show that it goes wrong without. Also assumed: no other load or store uses the address of the variable, blocks copied or filled are outside it."
  },
  {
   "property": "C63",
   "status": "partial",
   "theorems": [
    "Verif.Vcode.emit_correct_partial",
    "Verif.Vcode.emit_ranges_partial",
    "Verif.Vcode.emit_checks_partial",
    "Verif.Vcode.canElide_partial",
    "Verif.Vcode.emit_tame_correct",
    "Verif.Vcode.emitAdd_total",
    "Verif.Vcode.inRepr_i64",
    "Verif.Vcode.emit_overflow64_counterexample",
    "Verif.Vcode.emit_fold_counterexample",
    "Verif.Vcode.emit_foldUb_counterexample",
    "Verif.Vcode.emit_divUb_counterexample",
    "Verif.Vcode.emit_zeroSub_counterexample",
    "Verif.Vcode.emit_abs_counterexample",
    "Verif.Vcode.emit_divRange_counterexample",
    "Verif.Vcode.emit_expRange_counterexample",
    "Verif.Vcode.emit_negRange_counterexample",
    "Verif.Vcode.emit_absRange_counterexample",
    "Verif.Vcode.emit_divVarRange_counterexample",
    "Verif.Vcode.emit_remRange_counterexample",
    "Verif.Vcode.emit_oneBit_counterexample"
   ],
   "note": "Proved for all expressions: emitted code computes the expression including overflow errors, all ranges contain their values, checks left out would succeed, outside the cases listed in Expr.Sound; unconditionally when all operations have results in their declared types and divisors are not negative (emit_tame_correct). The excluded cases are defects of the program, each with a counterexample. Not covered: reals, loads and stores between operations, several blocks."
  },
  {
   "property": "C64",
   "status": "partial",
   "theorems": [
    "Verif.TimeText.ordinalStr_partial",
    "Verif.TimeText.ordinalStr_counterexample",
    "Verif.TimeText.ordinalStr_eleven_counterexample"
   ],
   "note": "False: numbers beyond 20 that end in 3 get the ending th (the third test of the code repeats the second), and 111, 112 and so on are wrong; proved for all others."
  },
  {
   "property": "C65",
   "status": "partial",
   "theorems": [
    "Verif.Psl.simplify_ok",
    "Verif.Psl.simplify_repaired",
    "Verif.Psl.simplify_sound",
    "Verif.Psl.simplify_moves_counterexample",
    "Verif.Psl.simplify_accepts_counterexample",
    "Verif.Psl.simplify_cycle_counterexample"
   ],
   "note": "For all automata that pass the check of debug builds and in which no accepting state has epsilon edges: no assertion fails, acceptance is kept exactly, and no move is added. Moves are kept with the repaired comparison of guards; the program loses some (simplify_moves_counterexample). Without the check acceptance is weakened (simplify_accepts_counterexample)."
  },
  {
   "property": "C66",
   "status": "partial",
   "theorems": [
    "Verif.Psl.newFsm_recognises",
    "Verif.Psl.sequence_sound",
    "Verif.Psl.sequence_exact",
    "Verif.Psl.sequence_complete_counterexample",
    "Verif.Psl.conjunction_counterexample",
    "Verif.Psl.optional_counterexample",
    "Verif.Psl.star_counterexample",
    "Verif.Psl.goto_counterexample",
    "Verif.Psl.null_range_counterexample"
   ],
   "note": "Proved for sequences in which everything is repeated at least once: the automaton as built recognises exactly what is described, also after removal of epsilon edges with a repaired comparison of guards; with the comparison of the program only soundness holds and completeness is refuted. Missing/false: optional repetition, [*], [->] without count, empty ranges, conjunction; each has a counterexample theorem. Disjunction is not modelled."
  },
  {
   "property": "C67",
   "status": "partial",
   "theorems": [
    "Verif.Jit.Layout.width_holds",
    "Verif.Jit.Layout.length_members",
    "Verif.Jit.Layout.access_inside",
    "Verif.Jit.Layout.signal_access_inside",
    "Verif.Jit.Layout.access_apart",
    "Verif.Jit.Layout.record_placed",
    "Verif.Jit.Layout.frame_placed",
    "Verif.Jit.Layout.layout_agrees_partial",
    "Verif.Jit.Layout.signal_layout_agrees_partial",
    "Verif.Jit.Layout.layout_record_placed",
    "Verif.Jit.Layout.append_placed",
    "Verif.Jit.Layout.dedup_same",
    "Verif.Jit.Layout.nested_record_counterexample",
    "Verif.Jit.Layout.array_of_records_counterexample",
    "Verif.Jit.Layout.null_range_counterexample",
    "Verif.Jit.Layout.nested_unconstrained_counterexample",
    "Verif.Jit.Layout.dynamic_element_counterexample",
    "Verif.Jit.Layout.empty_of_dynamic_counterexample",
    "Verif.Jit.Layout.access_field_counterexample",
    "Verif.Jit.Layout.signal_array_of_records_counterexample",
    "Verif.Jit.Layout.dedup_align_counterexample",
    "Verif.Jit.Layout.lowered_dims",
    "Verif.Jit.Layout.lowered_signal_dims"
   ],
   "note": "Proved for every type: the accesses of generated code to the parts of a value (and of the handles of its signals) are inside it, aligned and apart; records and frames are placed without overlap. The agreement of the library with the code generator is false in general (seven kinds of types are given as counterexamples) and proved for the types described by Faithful and FaithfulSignal. Sizes that do not fit in an int are outside the model."
  },
  {
   "property": "C68",
   "status": "partial",
   "theorems": [
    "Verif.Net.send_frame",
    "Verif.Net.send_order",
    "Verif.Net.receive_partial",
    "Verif.Net.receive_all_partial",
    "Verif.Net.receive_binary",
    "Verif.Net.end_to_end_partial",
    "Verif.Net.receive_inside",
    "Verif.Net.receive_safe_partial",
    "Verif.Net.receive_debug_partial",
    "Verif.Net.ping_answered",
    "Verif.Net.text_followed_counterexample",
    "Verif.Net.text_zero_counterexample",
    "Verif.Net.length_cut_counterexample",
    "Verif.Net.length_negative_counterexample",
    "Verif.Net.length_hang_counterexample",
    "Verif.Net.fragment_counterexample",
    "Verif.Net.flush_again_counterexample"
   ],
   "note": "Proved: sent frames are well formed (RFC 6455) with the shortest length, sending keeps order for all interleavings and partial writes, receiving is exact for all cuts when no text is followed by other bytes in the same piece, texts have no zero byte, payloads are below 2 GB and messages are not fragmented; the receive buffer is never overrun for any bytes; no hang or negative length unless the bytes contain a length field of 2^31 or more. Refuted otherwise: the terminator of a text overwrites the next frame, lengths are cut to int (hang, negative length), fragments and EAGAIN."
  },
  {
   "property": "C69",
   "status": "partial",
   "theorems": [
    "Verif.Net.cx_messages_partial",
    "Verif.Net.cx_all_partial",
    "Verif.Net.cx_invalid_counterexample",
    "Verif.Net.cx_array_counterexample",
    "Verif.Net.cx_takeover_counterexample",
    "Verif.Net.cx_gone_counterexample"
   ],
   "note": "Proved for the first connection and messages that are JSON arrays or objects, for all cuts. Refuted: a message that is not JSON crashes the server, an array is echoed, a second client inherits part of the message of the first, and a client that leaves early makes the server use descriptor -1 or send its answer to the next client."
  },
  {
   "property": "C70",
   "status": "proved",
   "theorems": [
    "Verif.Net.base64_round_trip",
    "Verif.Net.base64_length",
    "Verif.Net.packet_coded",
    "Verif.Net.packet_unique",
    "Verif.Net.packet_string_counterexample"
   ],
   "note": "For all byte sequences and all fields within their range; strings of 65535 bytes and more are outside (an assertion in debug builds) and the last theorem shows what a release build does with one of 65536."
  },
  {
   "property": "C71",
   "status": "partial",
   "theorems": [
    "Verif.Lex.bitstring_unlimited",
    "Verif.Lex.bitstring_unsigned",
    "Verif.Lex.bitstring_signed_cases",
    "Verif.Lex.bitstring_signed_partial",
    "Verif.Lex.bitstring_decimal",
    "Verif.Lex.bitstring_decimal_length",
    "Verif.Lex.bitstring_decimal_bad",
    "Verif.Lex.bitstring_too_long",
    "Verif.Lex.bitstring_underscores",
    "Verif.Lex.bitstring_percent",
    "Verif.Lex.signed_length_counterexample",
    "Verif.Lex.percent_inside_counterexample",
    "Verif.Lex.quote_inside_counterexample",
    "Verif.Lex.percent_underscore_counterexample",
    "Verif.Lex.signed_decimal_counterexample"
   ],
   "note": "Exact (iff) for literals without a length, unsigned literals with a length and decimal literals, for any lexeme without percent signs or quotation marks inside. Signed literals with a length: everything the standard accepts is right; the code also accepts the literals described by CutSigned (e.g. 8SX\"0FF\", an error in the standard's own list). Further counterexamples: percent sign or quotation mark inside, underscore before a closing percent sign, SD."
  },
  {
   "property": "C72",
   "status": "partial",
   "theorems": [
    "Verif.Lex.decimal_value",
    "Verif.Lex.decimal_range",
    "Verif.Lex.decimal_only_partial",
    "Verif.Lex.decimal_minus",
    "Verif.Lex.decimal_minus_counterexample",
    "Verif.Lex.decimal_underscore_counterexample",
    "Verif.Lex.based_value",
    "Verif.Lex.based_range_counterexample",
    "Verif.Lex.based_rounds_counterexample",
    "Verif.Lex.based_only_partial",
    "Verif.Lex.based_prefix_counterexample",
    "Verif.Lex.based_underscore_counterexample",
    "Verif.Lex.based_base_counterexample"
   ],
   "note": "Decimal literals: value (all in range), report (all out of range), and soundness but for a minus sign with zero and an underscore before the exponent, for which there are counterexamples. Based literals: value (all in range) and soundness with the conditions that the counterexamples show to be needed; a literal out of range is never reported. Real literals are not modelled, and the prefix 0b of newer libraries is left out."
  },
  {
   "property": "C73",
   "status": "partial",
   "theorems": [
    "Verif.Obj.marks",
    "Verif.Obj.word_in_bounds",
    "Verif.Obj.traversals_partial",
    "Verif.Obj.generation_counterexample",
    "Verif.Obj.nested_counterexample"
   ],
   "note": "marks is exact for every sequence of calls. What is missing: a traversal is only right if the last one in the arena was less than 65536 before (traversals_partial, generation_counterexample), and if no other traversal runs within it (nested_counterexample)."
  },
  {
   "property": "C74",
   "status": "proved",
   "theorems": [
    "Verif.Obj.gc_alive",
    "Verif.Obj.gc_forward",
    "Verif.Obj.gc_size"
   ],
   "note": "References within the arena are to objects (Sound). Sizes are natural numbers: arenas of 4 GB are not modelled."
  },
  {
   "property": "C75",
   "status": "partial",
   "theorems": [
    "Verif.Obj.write_read",
    "Verif.Obj.locus_same",
    "Verif.Obj.locus_copied",
    "Verif.Obj.read_root_partial",
    "Verif.Obj.fresh_dependency_counterexample",
    "Verif.Obj.read_root_counterexample",
    "Verif.Obj.dead_reference_counterexample"
   ],
   "note": "write_read is one step; it preserves its own hypothesis about the dependencies, so it holds for whole libraries. The file is a sequence of tokens (bytes: C01, C06, C07). What is missing: object_read returns the first object, not the root (read_root_partial, read_root_counterexample); a dependency that is in memory because it was analysed in the same process has not been packed, but the offsets of the file are used (fresh_dependency_counterexample); a reference to a dead object of another arena is written (dead_reference_counterexample)."
  },
  {
   "property": "C76",
   "status": "proved",
   "theorems": [
    "Verif.Obj.Kind.sizes_end",
    "Verif.Obj.Kind.sizes",
    "Verif.Obj.Kind.lookup_distinct",
    "Verif.Obj.Kind.change_kind",
    "Verif.Obj.Kind.change_in_place",
    "Verif.Obj.Kind.change_walk",
    "Verif.Obj.Kind.tables_typed",
    "Verif.Obj.Kind.tree_frees_all",
    "Verif.Obj.Kind.tree_roots",
    "Verif.Obj.Kind.leak_counterexample"
   ],
   "note": "For all classes; that every array is freed is proved for the tables of tree.c and false for some other tables (leak_counterexample). The items are words; the change of the kind field is not part of the model."
  },
  {
   "property": "C77",
   "status": "partial",
   "theorems": [
    "Verif.Obj.Copy.arenas",
    "Verif.Obj.Copy.copied_partial",
    "Verif.Obj.Copy.copy_partial",
    "Verif.Obj.Copy.cycle_counterexample"
   ],
   "note": "Proved in full for graphs in which all objects on cycles are wanted. Otherwise all that is copied leads to a wanted object and all wanted objects are copied, but objects on a cycle may be left out: cycle_counterexample, a recursive function in a generate statement. Callbacks are left out; items of type text or number are undefined (should_not_reach_here)."
  },
  {
   "property": "C78",
   "status": "partial",
   "theorems": [
    "Verif.Hash.Chash.store_linear",
    "Verif.Hash.Chash.put_linear",
    "Verif.Hash.Chash.get_linear",
    "Verif.Hash.Chash.get_sound",
    "Verif.Hash.Chash.put_once",
    "Verif.Hash.Chash.no_abort",
    "Verif.Hash.Chash.lost_counterexample",
    "Verif.Hash.Chash.assert_counterexample",
    "Verif.Hash.Chash.get_linear_counterexample"
   ],
   "note": "Linearizability of chash_put and chash_get for all interleavings in which no value is overwritten while the table is being copied, preservation of keys and put-once values in all; two counterexamples where a value is overwritten meanwhile. chash_cas (used by the tests only), the freeing of old tables and termination are not modelled."
  },
  {
   "property": "C79",
   "status": "partial",
   "theorems": [
    "Verif.Handle.decode_file",
    "Verif.Handle.decode_zero",
    "Verif.Handle.fresh_partial",
    "Verif.Handle.file_handles_partial",
    "Verif.Handle.wrap_counterexample",
    "Verif.Handle.alias_counterexample",
    "Verif.Handle.decode_obj_partial",
    "Verif.Handle.handle_same_partial",
    "Verif.Handle.handle_new_partial",
    "Verif.Handle.no_assert_partial",
    "Verif.Handle.handle_total_partial"
   ],
   "note": "decode_file needs no bound; that handles are not issued twice is proved up to 65535 openings (2^32-2 handles for objects) and refuted beyond by wrap_counterexample and alias_counterexample"
  },
  {
   "property": "C80",
   "status": "partial",
   "theorems": [
    "Verif.Udp.comb_partial",
    "Verif.Udp.seq_partial",
    "Verif.Udp.refused",
    "Verif.Udp.b_counterexample",
    "Verif.Udp.b_edge_counterexample",
    "Verif.Udp.any_counterexample",
    "Verif.Udp.z_counterexample",
    "Verif.Udp.hold_counterexample",
    "Verif.Udp.order_counterexample"
   ],
   "note": "Proved under the conditions in the statement; each condition has a counterexample theorem. Conditions are trees, signals and delays are not modelled"
  },
  {
   "property": "C81",
   "status": "partial",
   "theorems": [
    "Verif.Pp.expr_partial",
    "Verif.Pp.reads_partial",
    "Verif.Pp.chain_counterexample",
    "Verif.Pp.else_counterexample",
    "Verif.Pp.if_counterexample",
    "Verif.Pp.skipped_counterexample"
   ],
   "note": "Proved for the texts described in the statement; chain_counterexample, else_counterexample, if_counterexample and skipped_counterexample show what goes wrong otherwise"
  },
  {
   "property": "C82",
   "status": "partial",
   "theorems": [
    "Verif.Jit.Fill.fill_returns_partial",
    "Verif.Jit.Fill.fill_stays_partial",
    "Verif.Jit.Fill.fill_once_partial",
    "Verif.Jit.Fill.fill_ends_partial",
    "Verif.Jit.Fill.fill_no_fail_partial",
    "Verif.Jit.Fill.aot_incomplete_counterexample",
    "Verif.Jit.Fill.aot_assert_counterexample",
    "Verif.Jit.Fill.missing_hang_counterexample",
    "Verif.Jit.Fill.cyclic_hang_counterexample"
   ],
   "note": "For functions that start as placeholders; with code compiled ahead of time the claim is false (aot_incomplete_counterexample, aot_assert_counterexample). Ending needs references without cycles and existing units (cyclic_hang_counterexample, missing_hang_counterexample)."
  },
  {
   "property": "C83",
   "status": "partial",
   "theorems": [
    "Verif.Jit.Code.code_linked",
    "Verif.Jit.Code.code_apart",
    "Verif.Jit.Code.code_stays",
    "Verif.Jit.Code.code_no_assert",
    "Verif.Jit.Code.unwind_partial",
    "Verif.Jit.Code.unwind_counterexample",
    "Verif.Jit.Code.huge_counterexample",
    "Verif.Jit.Code.near_counterexample"
   ],
   "note": "Linking, disjointness and permanence hold in every reachable state. The unwinder is right except in spans left by blobs that were too small (counterexample); a blob larger than a page fails an assertion and a label too far for a short jump ends the program (counterexamples). Each function of the code cache is one step. Loading of object files is not modelled."
  },
  {
   "property": "C84",
   "status": "partial",
   "theorems": [
    "Verif.Code.Llvm.llvm_halts_partial",
    "Verif.Code.Llvm.llvm_halts_only_partial",
    "Verif.Code.Llvm.llvm_follows_partial",
    "Verif.Code.Llvm.genIr_ok",
    "Verif.Code.Llvm.Runtime.llvm_alloc_same_partial",
    "Verif.Code.Llvm.Runtime.llvm_alloc_fits",
    "Verif.Code.Llvm.Runtime.interp_trim_frees",
    "Verif.Code.Llvm.Runtime.llvm_sadd_same",
    "Verif.Code.Llvm.Runtime.llvm_memset_same",
    "Verif.Code.Llvm.Runtime.llvm_alloc_zero_counterexample",
    "Verif.Code.Llvm.Runtime.llvm_alloc_back_counterexample",
    "Verif.Code.Llvm.Runtime.llvm_trim_counterexample",
    "Verif.Code.Llvm.Runtime.llvm_sadd_counterexample",
    "Verif.Code.Llvm.llvm_exp_counterexample",
    "Verif.Code.Llvm.llvm_nan_counterexample",
    "Verif.Code.Llvm.llvm_exp_flags_counterexample",
    "Verif.Code.Llvm.llvm_switch_counterexample",
    "Verif.Code.Llvm.llvm_handle_counterexample"
   ],
   "note": "Simulation theorem for every function that compiles, in both directions, under FuncOk (well-formed intermediate code, no reader of the flags after a power without a check, one register per switch, handles below 2^31), Starts (live registers zero at entry) and SafeRun (no step is one of the listed exceptions, each of which has a counterexample). LLVM's own optimisation and machine code are trusted; code saved ahead of time (relocations) and the entry guard are not modelled."
  },
  {
   "property": "C85",
   "status": "partial",
   "theorems": [
    "Verif.Cov.merge_union",
    "Verif.Cov.merge_all_union",
    "Verif.Cov.merge_order",
    "Verif.Cov.merge_fails_iff",
    "Verif.Cov.merge_succeeds",
    "Verif.Cov.merge_grown_counterexample",
    "Verif.Cov.merge_overloaded_counterexample",
    "Verif.Cov.file_round_trip",
    "Verif.Cov.block_name_lost_counterexample"
   ],
   "note": "The union is proved whenever merging succeeds, with an exact condition for the assertion to fail (which contradicts the manual) and a counterexample for siblings with equal names. The file is modelled as typed values; their bytes are C01, C06 and C07. The exclusion and folding of bins and the reports are not modelled."
  },
  {
   "property": "C86",
   "status": "partial",
   "theorems": [
    "Verif.Cov.toggleCb_upd",
    "Verif.Cov.check_spec",
    "Verif.Cov.toggle_counts",
    "Verif.Cov.mark_spec",
    "Verif.Cov.toggle_items",
    "Verif.Cov.elem_total",
    "Verif.Cov.toggle_bins",
    "Verif.Cov.state_counts",
    "Verif.Cov.initial_state_counterexample",
    "Verif.Cov.expr_bins",
    "Verif.Cov.expr_hits",
    "Verif.Cov.std_hits",
    "Verif.Cov.expr_short",
    "Verif.Cov.expr_unreachable"
   ],
   "note": "Signals of records are not modelled (their fields have one set of bins for all elements of an array of records). That the callback runs once for each event with the previous value is assumed. The first state of an FSM counts one visit whatever the initial value, with a counterexample. Statement and branch counters are single increments of generated code and not modelled."
  },
  {
   "property": "C87",
   "status": "partial",
   "theorems": [
    "Verif.Case.scalar_case",
    "Verif.Case.scalar_case_only",
    "Verif.Case.enc_agree",
    "Verif.Case.exact_injective",
    "Verif.Case.fits_of_literals",
    "Verif.Case.array_case",
    "Verif.Case.array_case_only",
    "Verif.Case.array_labels",
    "Verif.Case.array_cover_counterexample",
    "Verif.Case.char_partial",
    "Verif.Case.chars_partial",
    "Verif.Case.char_range_counterexample",
    "Verif.Case.char_range_label_counterexample",
    "Verif.Case.interp_case",
    "Verif.Case.target_unique",
    "Verif.Case.target_default",
    "Verif.Case.mir_case",
    "Verif.Case.simp_case_partial",
    "Verif.Case.simp_range_counterexample",
    "Verif.Case.simp_range_counterexample_any",
    "Verif.Case.simp_unknown_counterexample",
    "Verif.Case.thunk_case"
   ],
   "note": "Partial: that the elements of a choice are found is proved for expressions without a range among the choices of an aggregate (char_partial, chars_partial); a range is overlooked, so that the alternative is never executed (char_range_counterexample, char_range_label_counterexample). Folding of a statement with a known value is proved without ranges and with all choices known (simp_case_partial); with a range the first alternative that has one is kept whatever the value (simp_range_counterexample, simp_range_counterexample_any), and a choice that is not yet known makes others be taken (simp_unknown_counterexample). With the hash the counter of a choice that collides is missing (array_cover_counterexample). Not modelled: matching case statements, the check of the length, nested statements."
  },
  {
   "property": "C88",
   "status": "partial",
   "theorems": [
    "Verif.Predef.lt_correct",
    "Verif.Predef.lt_null_counterexample",
    "Verif.Predef.le_correct",
    "Verif.Predef.gt_correct",
    "Verif.Predef.ge_correct",
    "Verif.Predef.ge_null_counterexample",
    "Verif.Predef.min_max_arrays",
    "Verif.Predef.eq_complete",
    "Verif.Predef.eq_correct_partial",
    "Verif.Predef.eq_matrix_counterexample",
    "Verif.Predef.shift_correct",
    "Verif.Predef.arith_shift_correct_partial",
    "Verif.Predef.sra_counterexample",
    "Verif.Predef.sla_counterexample",
    "Verif.Predef.vec_correct",
    "Verif.Predef.not_correct",
    "Verif.Predef.mixed_correct",
    "Verif.Predef.reduce_correct",
    "Verif.Predef.min_max_correct_partial",
    "Verif.Predef.maximum_expr_counterexample",
    "Verif.Predef.match_correct",
    "Verif.Predef.match_asserts",
    "Verif.Predef.match_message_counterexample",
    "Verif.Predef.match_bit_correct",
    "Verif.Predef.match_array_correct"
   ],
   "note": "Partial because the code is wrong for some operands: < and >= of two null arrays (lt_null_counterexample, ge_null_counterexample), = of matrices of different shape (eq_matrix_counterexample), sra and sla by a positive amount of every array whose ends differ (sra_counterexample, sla_counterexample), MAXIMUM with an element range written as an attribute (maximum_expr_counterexample); the text of the assertion of ?< is cut (match_message_counterexample). The theorems cover all other operands. Equality of records and the order of arrays of real numbers are not modelled."
  },
  {
   "property": "C89",
   "status": "partial",
   "theorems": [
    "Verif.Seq.function_correct_partial",
    "Verif.Seq.procedure_correct_partial",
    "Verif.Seq.process_correct_partial",
    "Verif.Seq.procedure_lowers_iff",
    "Verif.Seq.function_lowers",
    "Verif.Seq.function_never_fails",
    "Verif.Seq.for_wait_return_counterexample",
    "Verif.Seq.return_after_release_counterexample"
   ],
   "note": "Proved for all nestings of the modelled statements: the code halts with an outcome exactly if the statements do, and the exact condition under which lowering fails. The hypotheses exclude return values that depend on objects released on return, where the code is wrong (return_after_release_counterexample), and for_wait_return_counterexample is a legal procedure on which the compiler stops. Left out: folding of branches on constants and statically null ranges, coverage counters, the code of expressions, loop parameters of other sizes than 32 bits, case statements (C87)."
  },
  {
   "property": "C90",
   "status": "partial",
   "theorems": [
    "Verif.Expr.Vhdl.vhdl_parse_iff",
    "Verif.Expr.Vhdl.vhdl_parse_prefix",
    "Verif.Expr.Vhdl.vhdl_unambiguous",
    "Verif.Expr.Vhdl.vhdl_standard",
    "Verif.Expr.Vhdl.vhdl_standard_unambiguous",
    "Verif.Expr.Vhdl.vhdl_print_parse",
    "Verif.Expr.Vhdl.vhdl_mixed_counterexample",
    "Verif.Expr.Vhdl.vhdl_nand_counterexample",
    "Verif.Expr.Vhdl.vhdl_relation_counterexample",
    "Verif.Expr.Vhdl.vhdl_shift_counterexample",
    "Verif.Expr.Vhdl.vhdl_abs_pow_counterexample",
    "Verif.Expr.Vhdl.vhdl_pow_abs_counterexample",
    "Verif.Expr.Vlog.vlog_parse_iff",
    "Verif.Expr.Vlog.vlog_parse_det",
    "Verif.Expr.Vlog.vlog_unambiguous",
    "Verif.Expr.Vlog.vlog_print_parse",
    "Verif.Expr.Vlog.vlog_xor_counterexample"
   ],
   "note": "Both parsers accept exactly the stated grammars, for all token sequences. Partial because these grammars are not those of the standards: the VHDL parser takes mixed logical operators, chains of relations and shifts and abs a ** b, and does not take a ** abs b of 2019; the Verilog parser lacks binary ^, ~^ and ** and unary ~&, ~| and ~^ (all with counterexamples). Names, literals, calls and aggregates are single tokens."
  },
  {
   "property": "C91",
   "status": "partial",
   "theorems": [
    "Verif.FourState.not_correct",
    "Verif.FourState.xor_correct",
    "Verif.FourState.and_correct_iff",
    "Verif.FourState.or_correct_iff",
    "Verif.FourState.and_counterexample",
    "Verif.FourState.or_counterexample",
    "Verif.FourState.not_array_correct",
    "Verif.FourState.and_array_correct_iff",
    "Verif.FourState.or_array_correct_iff",
    "Verif.FourState.or_length_counterexample",
    "Verif.FourState.and_reduce_correct_iff",
    "Verif.FourState.or_reduce_correct_iff",
    "Verif.FourState.nand_reduce_correct_iff",
    "Verif.FourState.nor_reduce_correct_iff",
    "Verif.FourState.xor_reduce_correct_iff",
    "Verif.FourState.xnor_reduce_correct",
    "Verif.FourState.log_or_correct_iff",
    "Verif.FourState.log_and_correct_iff",
    "Verif.FourState.log_and_counterexample",
    "Verif.FourState.log_not_correct_iff",
    "Verif.FourState.eq_correct_iff",
    "Verif.FourState.eq_counterexample",
    "Verif.FourState.case_eq_correct",
    "Verif.FourState.case_ne_correct",
    "Verif.FourState.lt_correct_iff",
    "Verif.FourState.gt_correct_iff",
    "Verif.FourState.le_correct_iff",
    "Verif.FourState.ge_correct_iff",
    "Verif.FourState.lt_counterexample",
    "Verif.FourState.resize_correct",
    "Verif.FourState.add_correct_partial",
    "Verif.FourState.add_unknown_counterexample",
    "Verif.FourState.add_assign_partial",
    "Verif.FourState.carry_counterexample",
    "Verif.FourState.neg_correct_partial",
    "Verif.FourState.to_logic_correct",
    "Verif.FourState.to_integer_correct",
    "Verif.FourState.to_integer_known",
    "Verif.FourState.to_integer_to_logic",
    "Verif.FourState.to_string_correct_iff",
    "Verif.FourState.to_string_counterexample",
    "Verif.FourState.decode_encode",
    "Verif.FourState.encode_decode",
    "Verif.FourState.resolve_correct_partial",
    "Verif.FourState.resolve_z_counterexample",
    "Verif.FourState.resolve_x_counterexample",
    "Verif.FourState.resolve_weak_counterexample",
    "Verif.FourState.verilog_vhdl",
    "Verif.FourState.vhdl_verilog_iff",
    "Verif.FourState.vhdl_net_iff",
    "Verif.FourState.binary_some_iff",
    "Verif.FourState.binary_correct_partial",
    "Verif.FourState.binary_missing_counterexample",
    "Verif.FourState.to_verilog_iff"
   ],
   "note": "Exact conditions for every operator of the package except that sums and negation are stated for known operands, and that wires are stated for strong 0, strong 1 and z without strength; counterexamples where the package differs from the standard. Signed operands, part selects and the delays are not modelled."
  },
  {
   "property": "C92",
   "status": "partial",
   "theorems": [
    "Verif.Textio.write_correct",
    "Verif.Textio.justify_correct",
    "Verif.Textio.read_bit_iff",
    "Verif.Textio.read_bit_bad",
    "Verif.Textio.read_bits_iff",
    "Verif.Textio.read_str_iff",
    "Verif.Textio.read_char_iff",
    "Verif.Textio.sread_correct",
    "Verif.Textio.read_bool_iff",
    "Verif.Textio.read_int_correct",
    "Verif.Textio.read_int_bad",
    "Verif.Textio.read_int_plus_counterexample",
    "Verif.Textio.xread_iff",
    "Verif.Textio.oread_iff",
    "Verif.Textio.hread_iff",
    "Verif.Textio.hex_digits",
    "Verif.Textio.hread_bad_counterexample",
    "Verif.Textio.readline_correct",
    "Verif.Textio.read_written",
    "Verif.Textio.readline_cr_counterexample",
    "Verif.Textio.time_text_correct",
    "Verif.Textio.time_text_whole",
    "Verif.Textio.time_low_counterexample",
    "Verif.Textio.read_time_correct",
    "Verif.Textio.write_read_time_partial",
    "Verif.Textio.read_time_fraction_counterexample",
    "Verif.Textio.read_time_twice_counterexample",
    "Verif.Textio.read_time_range_counterexample",
    "Verif.Textio.read_null",
    "Verif.Textio.bit_round_trip",
    "Verif.Textio.bits_round_trip",
    "Verif.Textio.bool_round_trip",
    "Verif.Textio.int_round_trip",
    "Verif.Textio.str_round_trip",
    "Verif.Textio.int_join_counterexample",
    "Verif.Textio.units_correct"
   ],
   "note": "Exact conditions for reading every type except reals, and round trips; times are read back only if they are multiples of the unit (counterexample otherwise), and their text is exact for units that are powers of ten. Reading and writing of reals is not modelled."
  },
  {
   "property": "C93",
   "status": "partial",
   "theorems": [
    "Verif.Mangle.type_code_unique",
    "Verif.Mangle.type_code_digit_counterexample",
    "Verif.Mangle.sig_unique",
    "Verif.Mangle.name_unique",
    "Verif.Mangle.ext_id_correct",
    "Verif.Mangle.mangle_unique",
    "Verif.Mangle.mangle_complete",
    "Verif.Mangle.mangle_ext_counterexample",
    "Verif.Mangle.call_context_iff",
    "Verif.Mangle.call_context_nested_counterexample",
    "Verif.Mangle.call_context_ext_counterexample",
    "Verif.Mangle.predef_name_iff",
    "Verif.Mangle.file_close_iff",
    "Verif.Mangle.predef_ext_counterexample",
    "Verif.Mangle.rename_type_correct",
    "Verif.Mangle.rename_correct",
    "Verif.Mangle.rename_bare_correct",
    "Verif.Mangle.rename_nested_counterexample",
    "Verif.Mangle.rename_nested_collide",
    "Verif.Mangle.rename_local_type_counterexample",
    "Verif.Mangle.rename_prefix_counterexample",
    "Verif.Mangle.symbol_unique",
    "Verif.Mangle.symbol_legal",
    "Verif.Mangle.symbol_counterexample",
    "Verif.Mangle.rename_other"
   ],
   "note": "Names of types are texts which do not begin with a digit, and extended identifiers have no backslash, in mangle_unique; both are needed (type_code_digit_counterexample, mangle_ext_counterexample). The context of a call, the names of predefined subprograms, of copies and symbols are right under exact or sufficient conditions; outside of them there are counterexamples, of which rename_nested_counterexample concerns ordinary programs. Parameters without type, anonymous types and names of Verilog modules are not modelled."
  },
  {
   "property": "C94",
   "status": "partial",
   "theorems": [
    "Verif.ParseValue.parse_array_iff",
    "Verif.ParseValue.array_round_trip",
    "Verif.ParseValue.string_quote_counterexample",
    "Verif.ParseValue.array_wide_counterexample",
    "Verif.ParseValue.array_subtype_counterexample",
    "Verif.ParseValue.parse_int_iff",
    "Verif.ParseValue.parse_int_ub_iff",
    "Verif.ParseValue.parse_integer",
    "Verif.ParseValue.parse_int_under_counterexample",
    "Verif.ParseValue.parse_int_min_counterexample",
    "Verif.ParseValue.parse_int_forms_counterexample",
    "Verif.ParseValue.toUpper_eq",
    "Verif.ParseValue.parse_enum_iff",
    "Verif.ParseValue.parse_enum_literal",
    "Verif.ParseValue.parse_enum_blank_counterexample",
    "Verif.ParseValue.parse_enum_ext_counterexample",
    "Verif.ParseValue.parse_phys_iff",
    "Verif.ParseValue.parse_phys_minus_counterexample"
   ],
   "note": "What is accepted is stated exactly for all types but real. For the claim itself see the counterexamples: integers overflow (parse_int_ub_iff), underscores may stand anywhere, other forms of integers are refused, -1 of the first unit is refused, extended identifiers and the literal of a blank are not found, arrays of more than 256 literals lose bits and arrays of a subtype stop the program. strtod and the product with the unit are parameters; values of type real are not modelled."
  },
  {
   "property": "C95",
   "status": "partial",
   "theorems": [
    "Verif.StdEnv.date_exists",
    "Verif.StdEnv.date_unique",
    "Verif.StdEnv.gmtimeR_exists",
    "Verif.StdEnv.to_time_t_defined_iff",
    "Verif.StdEnv.to_time_t_iff",
    "Verif.StdEnv.to_time_t_correct",
    "Verif.StdEnv.to_time_t_2039_counterexample",
    "Verif.StdEnv.to_time_t_1968_counterexample",
    "Verif.StdEnv.epoch_trec_correct",
    "Verif.StdEnv.epoch_local_iff",
    "Verif.StdEnv.epoch_wrong_counterexample",
    "Verif.StdEnv.epoch_second_late_counterexample",
    "Verif.StdEnv.gmtime_correct",
    "Verif.StdEnv.gmtime_defined_iff",
    "Verif.StdEnv.gmtime_2038_counterexample",
    "Verif.StdEnv.localtime_correct",
    "Verif.StdEnv.epoch_gmtime",
    "Verif.StdEnv.localtime_trec_correct",
    "Verif.StdEnv.gmtime_trec_iff",
    "Verif.StdEnv.gmtime_trec_counterexample",
    "Verif.StdEnv.diff_correct",
    "Verif.StdEnv.add_correct_iff",
    "Verif.StdEnv.add_nonneg_correct",
    "Verif.StdEnv.sub_whole_correct",
    "Verif.StdEnv.sub_half_counterexample",
    "Verif.StdEnv.sub_quarter_counterexample",
    "Verif.StdEnv.time_to_seconds_iff",
    "Verif.StdEnv.time_to_seconds_counterexample",
    "Verif.StdEnv.seconds_to_time_correct",
    "Verif.StdEnv.seconds_to_time_range_counterexample",
    "Verif.StdEnv.seconds_time_roundtrip",
    "Verif.StdEnv.to_string_partial",
    "Verif.StdEnv.iso_unique",
    "Verif.StdEnv.to_string_month_counterexample",
    "Verif.StdEnv.file_name_correct",
    "Verif.StdEnv.file_path_absolute",
    "Verif.StdEnv.file_path_relative",
    "Verif.StdEnv.file_path_root_counterexample"
   ],
   "note": "Proved: the calendar is well defined (every moment has one date), exactly in which years to_time_t is defined and right, EPOCH, GMTIME and LOCALTIME of numbers and records where these hold, exactly when adding is right, differences, conversions of TIME, the text up to the month, names of files. False and shown by counterexamples: EPOCH of the current time, EPOCH of local records, GMTIME around a change of the clocks and after 2038, subtraction of parts of a second, negative times, range errors, the month in the text, files in the root. Left out: rounding of floating point numbers."
  },
  {
   "property": "C96",
   "status": "partial",
   "theorems": [
    "Verif.Drivers.lsp_prefix",
    "Verif.Drivers.lsp_static",
    "Verif.Drivers.lsp_of_static",
    "Verif.Drivers.lsp_longest_partial",
    "Verif.Drivers.lsp_range_counterexample",
    "Verif.Drivers.lsp_covers",
    "Verif.Drivers.static_covers",
    "Verif.Drivers.sameTree_eq",
    "Verif.Drivers.sameTree_refl",
    "Verif.Drivers.rootRef_lsp",
    "Verif.Drivers.rootRef_root",
    "Verif.Drivers.visit_iff",
    "Verif.Drivers.visit_buffer_counterexample",
    "Verif.Drivers.decl_chain_covers",
    "Verif.Drivers.proc_chain_covers_partial",
    "Verif.Drivers.proc_chain_ext_counterexample",
    "Verif.Drivers.proc_chain_ext_part_counterexample",
    "Verif.Drivers.proc_chain_view_counterexample",
    "Verif.Drivers.drivers_only",
    "Verif.Drivers.drivers_static",
    "Verif.Drivers.decl_chain_root",
    "Verif.Drivers.has_unique_sound",
    "Verif.Drivers.has_unique_defined",
    "Verif.Drivers.has_unique_complete",
    "Verif.Drivers.has_unique_overlap_counterexample",
    "Verif.Drivers.has_unique_outside_counterexample",
    "Verif.Drivers.has_unique_view_counterexample"
   ],
   "note": "The prefixes, the walk over the statements and the test for a unique driver are proved for the model; the theorem on the chains of processes leaves out processes that assign external names, the one on prefixes leaves out slices by range attributes. Counterexamples: external names lose drivers, parts of external names get none, views are ignored, buffer ports are not counted, indexes outside of the bounds are looked up in the mask. Sequential statements are given as the list of their targets."
  },
  {
   "property": "C97",
   "status": "partial",
   "theorems": [
    "Verif.Wave.writeBinary_length",
    "Verif.Wave.writeBinary_digits",
    "Verif.Wave.binVal_write",
    "Verif.Wave.int_shown",
    "Verif.Wave.physical_defined",
    "Verif.Wave.physical_nonneg",
    "Verif.Wave.physical_negative_iff",
    "Verif.Wave.physical_negative_counterexample",
    "Verif.Wave.physical_small_counterexample",
    "Verif.Wave.literal_shown_iff",
    "Verif.Wave.enum_scalar",
    "Verif.Wave.enum_case_counterexample",
    "Verif.Wave.int_array_shown",
    "Verif.Wave.int_nested_counterexample",
    "Verif.Wave.chars_shown",
    "Verif.Wave.chars_layout",
    "Verif.Wave.logic_shown",
    "Verif.Wave.string_shown",
    "Verif.Wave.first_only_out",
    "Verif.Wave.first_only_counterexample",
    "Verif.Wave.all_variables_iff",
    "Verif.Wave.memNames_length",
    "Verif.Wave.name_at_offset",
    "Verif.Wave.offset_exists",
    "Verif.Wave.changes_at_times",
    "Verif.Wave.times_increase",
    "Verif.Wave.should_dump_iff",
    "Verif.Wave.process_file_partial",
    "Verif.Wave.process_file_long_counterexample",
    "Verif.Wave.leave_enter_iff",
    "Verif.Wave.package_scope_counterexample",
    "Verif.Wave.physical_last_unit",
    "Verif.Wave.process_file_last_partial",
    "Verif.Wave.enter_path"
   ],
   "note": "Integers, bits, vectors and strings are proved for all dimensions; physical values that are not negative; names, times and selection. False for arrays of reals, physical values and enumerations, for arrays of arrays of integers, for negative physical values and for capital character literals (counterexamples). The theorem on files of names is for lines of at most 1022 characters. The FST library and decimal printing are not modelled."
  },
  {
   "property": "C98",
   "status": "proved",
   "theorems": [
    "Verif.Random.random_is_mt19937",
    "Verif.Random.words_exist",
    "Verif.Random.words_unique",
    "Verif.Random.init_holds",
    "Verif.Random.twist_holds",
    "Verif.Random.mix_eq",
    "Verif.Random.mag_eq",
    "Verif.Random.temper_eq",
    "Verif.Random.temper_inj"
   ],
   "note": "All calls from the start with any seed give the sequence of MT19937 defined by its recurrence, which exists and is unique. unsigned long arithmetic is cut to 32 bits; the lock is C41."
  },
  {
   "property": "C99",
   "status": "partial",
   "theorems": [
    "Verif.Printer.digits_value",
    "Verif.Printer.decimal_value",
    "Verif.Printer.binary_value",
    "Verif.Printer.signed_stored_iff",
    "Verif.Printer.int_decimal_iff",
    "Verif.Printer.int_unsigned_type",
    "Verif.Printer.int_signed_type",
    "Verif.Printer.int_byte_counterexample",
    "Verif.Printer.int_bits",
    "Verif.Printer.int_encode",
    "Verif.Printer.phys_shown",
    "Verif.Printer.string_shown_iff",
    "Verif.Printer.string_encoded",
    "Verif.Printer.string_quote_counterexample",
    "Verif.Printer.logic_inj",
    "Verif.Printer.logic_shown",
    "Verif.Printer.logic_vector_inj",
    "Verif.Printer.bit_vector_inj",
    "Verif.Printer.bit_shown",
    "Verif.Printer.is_print_iff",
    "Verif.Printer.string_inj",
    "Verif.Printer.string_unprintable",
    "Verif.Printer.enum_shown",
    "Verif.Printer.enum_large_counterexample",
    "Verif.Printer.enum_vector_inj",
    "Verif.Printer.requests_kind",
    "Verif.Printer.requests_elem",
    "Verif.Printer.printer_again",
    "Verif.Printer.scalar_fatal_iff",
    "Verif.Printer.printer_fatal_iff",
    "Verif.Printer.printer_null_iff",
    "Verif.Printer.enum_subtype_counterexample",
    "Verif.Printer.share_double_free",
    "Verif.Printer.double_free_counterexample",
    "Verif.Printer.free_once_partial",
    "Verif.Printer.bit_vector_shown",
    "Verif.Printer.logic_names",
    "Verif.Printer.logic_vector_shown"
   ],
   "note": "Proved for decimal of all types (with exactly the values shown wrongly), binary, hexadecimal, logic, bits, enumerations of at most 256 literals and vectors whose literals do not contain the separator, and for the table of printers. False, with counterexamples: unsigned integer types, quotes in strings, large enumerations, subtypes of enumerations, freeing after a subtype of a known base."
  }
 ]
}
