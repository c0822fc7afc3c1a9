{"claims": [
 {"property": "C01", "status": "proved", "theorems": ["Verif.Qsort.qsort_sorts"], "note": ""},
 {"property": "C02", "status": "proved", "theorems": ["Verif.Qsort.bsearch_correct", "Verif.Qsort.bsearch_after_qsort"], "note": ""},
 {"property": "C03", "status": "proved", "theorems": ["Verif.Malloc.blocks_disjoint", "Verif.Malloc.calls_terminate", "Verif.Malloc.no_leak", "Verif.Malloc.free_blocks_merged", "Verif.Malloc.malloc_size_max_wrong", "Verif.Malloc.malloc_huge_corrupts"], "note": "For requests up to 2^63-8192 bytes and a system that keeps the heap below 64 GiB (header size is unsigned int); malloc_size_max_wrong and malloc_huge_corrupts show what happens outside."},
 {"property": "C04", "status": "proved", "theorems": ["Verif.Mem.memmove_spec", "Verif.Mem.memcpy_spec", "Verif.Mem.memset_spec", "Verif.Mem.memcmp_spec", "Verif.Mem.memcmp_zero_iff", "Verif.Mem.memchr_partial", "Verif.Mem.memchr_high_wrong", "Verif.Mem.memccpy_wrong"], "note": "memmove/memcpy/memset/memcmp proved as stated; memchr only for bytes < 128 (memchr_partial) because memchr_high_wrong shows the code fails above; memccpy_wrong is a defect."},
 {"property": "C05", "status": "partial", "theorems": ["Verif.Mem.strlen_correct", "Verif.Mem.strnlen_correct", "Verif.Mem.strcpy_correct", "Verif.Mem.strcat_correct", "Verif.Mem.strncat_correct", "Verif.Mem.strcmp_correct", "Verif.Mem.strcmp_zero_iff", "Verif.Mem.strncmp_correct", "Verif.Mem.strncasecmp_correct", "Verif.Mem.strspn_correct", "Verif.Mem.strcspn_correct", "Verif.Mem.strpbrk_correct", "Verif.Mem.strchr_partial", "Verif.Mem.strrchr_partial", "Verif.Mem.strstr_partial", "Verif.Mem.strncpy_partial", "Verif.Mem.strtokR_partial", "Verif.Mem.basename_partial", "Verif.Mem.strchr_high_wrong", "Verif.Mem.strstr_empty_wrong", "Verif.Mem.strncpy_pad_wrong", "Verif.Mem.stpcpy_result_wrong", "Verif.Mem.strcasecmp_wrong", "Verif.Mem.strtokR_overread"], "note": "Functions that satisfy ISO C are proved in full; the code is wrong for high-byte strchr/strrchr, strstr(\"\",\"\"), strncpy padding, stpcpy's result, strcasecmp and strtok_r over-read: each has a proved witness and a _partial theorem for the inputs on which it is right."},
 {"property": "C06", "status": "partial", "theorems": ["Verif.Strtol.strtoullSub_correct", "Verif.Strtol.strtol_partial", "Verif.Strtol.strtoull_partial", "Verif.Strtol.atoi_partial", "Verif.Strtol.strtol_hex_prefix_wrong", "Verif.Strtol.strtol_base0_traps", "Verif.Strtol.strtoul_blank_wrong", "Verif.Strtol.strtoull_minus_wrong", "Verif.Strtol.atoi_int_min_ub"], "note": "Digit accumulation, sign, blanks, clamping and end pointer proved for bases 2..36; the 0x/0 prefix handling, blanks in strtoul, '-' in strtoull and atoi(INT_MIN) are wrong in the code (proved witnesses)."},
 {"property": "C07", "status": "partial", "theorems": ["Verif.FileOut.buffer_never_overflows", "Verif.FileOut.output_in_order", "Verif.FileOut.flush_delivers", "Verif.FileOut.output_with_errors_partial", "Verif.FileOut.short_write_duplicates", "Verif.FileOut.failed_count_duplicates", "Verif.FileOut.fwrite_size_zero_traps"], "note": "Proved in full when the system accepts each write completely; no buffer overflow for every outcome. With failing writes: order is kept (output_with_errors_partial) but the code duplicates bytes after a short write and misreports the count after a failed flush (short_write_duplicates, failed_count_duplicates)."},
 {"property": "C08", "status": "partial", "theorems": ["Verif.FileIn.fread_in_order", "Verif.FileIn.fread_regular", "Verif.FileIn.fgetc_correct", "Verif.FileIn.ungetc_correct", "Verif.FileIn.fread_skips_unget", "Verif.FileIn.read_error_undefined", "Verif.FileIn.read_error_duplicates"], "note": "Every sequence of fread calls and every chunking; fgetc/ungetc on regular files. The code violates the push-back part for fread (fread_skips_unget) and mishandles read errors."},
 {"property": "C09", "status": "proved", "theorems": ["Verif.Printf.snprintf_bounds", "Verif.Printf.snprintf_huge_size"], "note": "n below 2^32 (snprintf_huge_size shows n = 2^32 stores nothing); the value returned is vfprintf's, see C10 return_value_is_length"},
 {"property": "C10", "status": "partial", "theorems": ["Verif.Printf.printf_correct", "Verif.Printf.return_value_is_length", "Verif.Printf.print_long_roundtrip", "Verif.Printf.digits_fit", "Verif.Printf.numeral_value", "Verif.Printf.width_after_sign", "Verif.Printf.precision_truncates", "Verif.Printf.left_zero_pads_right", "Verif.Printf.hex_ignores_left", "Verif.Printf.zero_precision_ignored", "Verif.Printf.char_width_ignored", "Verif.Printf.negative_star_return", "Verif.Printf.trailing_percent_overreads"], "note": "All supported directives (Item.ok) in any combination; unsupported combinations where the library deviates from the standard are refuted by the listed witnesses. Floats not modelled."},
 {"property": "C11", "status": "proved", "theorems": ["Verif.Rand48.nrand48_correct", "Verif.Rand48.lrand48_sequence", "Verif.Rand48.nrand48_range", "Verif.Rand48.srand48_correct", "Verif.Rand48.srand48_reproducible"], "note": ""},
 {"property": "C12", "status": "proved", "theorems": ["Verif.Atexit.atexit_result", "Verif.Atexit.exit_runs_handlers", "Verif.Atexit.exit_runs_both", "Verif.Atexit.late_handler_lost", "Verif.Atexit.ninth_refused"], "note": "As stated (handlers registered before exit); ISO C's extra demands fail: late_handler_lost, ninth_refused."},
 {"property": "C13", "status": "proved", "theorems": ["Verif.Table.tryGet_correct", "Verif.Table.get_correct", "Verif.Table.results_correct", "Verif.Table.iterate_correct"], "note": "Every history and every hash function; termination of probing included. malloc failure and int overflow of capacity not modelled."},
 {"property": "C14", "status": "proved", "theorems": ["Verif.Names.interning_injective", "Verif.Names.interning_text"], "note": ""},
 {"property": "C15", "status": "proved", "theorems": ["Verif.Vec.vec_refines_list"], "note": ""},
 {"property": "C16", "status": "proved", "theorems": ["Verif.Util.decodeU_ulebBytes", "Verif.Util.decodeS_lebBytes", "Verif.Util.decodeU_varuint32", "Verif.Util.uleb_buffer_ok", "Verif.Util.leb_buffer_ok", "Verif.Util.data_string_roundtrip", "Verif.Util.chunks_correct", "Verif.Util.sized_chunk_readable"], "note": ""},
 {"property": "C17", "status": "proved", "theorems": ["Verif.Escape.as_roundtrip", "Verif.Escape.escaped_printable", "Verif.Escape.emitString_correct", "Verif.Escape.lex_roundtrip", "Verif.Escape.lex_roundtrip_needs_nonzero"], "note": "The assembler round trip is proved for every byte string; lex_roundtrip (C lexer) needs no NUL followed by an octal digit, witness lex_roundtrip_needs_nonzero."},
 {"property": "C18", "status": "proved", "theorems": ["Verif.Util.wrapValue_congr", "Verif.Util.wrapValue_range", "Verif.Util.wrapValue_64", "Verif.Util.wrapValue_of_inRange", "Verif.Util.wrapValue_idem", "Verif.Util.wrapValue_isI64", "Verif.Util.wrapValue_unique", "Verif.Util.isIm8_iff", "Verif.Util.isIm16_iff", "Verif.Util.isIm32_iff"], "note": ""},
 {"property": "C19", "status": "proved", "theorems": ["Verif.Path.joinPaths_follow", "Verif.Path.joinPaths_normal", "Verif.Path.joinPaths_none_iff", "Verif.Path.isFullpath_iff"], "note": ""},
 {"property": "C20", "status": "partial", "theorems": ["Verif.CppCond.cond_sound", "Verif.CppCond.unbalanced_rejected", "Verif.CppCond.cond_complete_partial", "Verif.CppCond.disabled_group", "Verif.CppCond.skipped_condition_rejected", "Verif.CppCond.endif_rest_kept"], "note": "Accepted files are properly nested and keep exactly the ISO groups, for every file, condition semantics and nesting depth; unbalanced files are rejected. Missing: acceptance of files whose skipped conditions are ill-formed (the code rejects them, skipped_condition_rejected), and line markers, which are copied to the output even in skipped groups."},
 {"property": "C21", "status": "partial", "theorems": ["Verif.IfExpr.if_accepts_iff", "Verif.IfExpr.if_terminates", "Verif.IfExpr.if_value_partial", "Verif.IfExpr.if_rejects", "Verif.IfExpr.value_unique", "Verif.IfExpr.unsigned_compare", "Verif.IfExpr.trap_unevaluated", "Verif.IfExpr.division_by_zero"], "note": "Soundness and completeness of the Pratt parser for the whole C expression grammar; ISO value for expressions without unsigned literals and without a trapping operand. Findings: unsigned_compare, trap_unevaluated, division_by_zero. Floating literals and reading tokens from text are not modelled here."},
 {"property": "C22", "status": "partial", "theorems": ["Verif.Macro.expand_terminates", "Verif.Macro.text_terminates", "Verif.Macro.history_partial", "Verif.Macro.history_dependence", "Verif.Macro.first_expansion_wrong"], "note": "Termination is proved for every table, source and state (object-like and function-like, # and ##). Independence of history is proved for object-like macros without ## that are not circular, where the result is the complete textual replacement; for circular macros it is false (history_dependence, first_expansion_wrong)."},
 {"property": "C23", "status": "proved", "theorems": ["Verif.LexOp.maximal_munch", "Verif.LexOp.no_operator", "Verif.LexOp.munch_unique", "Verif.LexOp.munch_iff", "Verif.LexOp.no_digraphs"], "note": "The scanner answers exactly the longest ISO C punctuator (digraphs apart) prefixing the input, and none only if none prefixes it. Digraphs are not supported (no_digraphs)."},
 {"property": "C24", "status": "partial", "theorems": ["Verif.Literal.read_decimal", "Verif.Literal.read_zero", "Verif.Literal.read_octal", "Verif.Literal.read_prefixed", "Verif.Literal.literal_type_partial", "Verif.Literal.literal_size_sign", "Verif.Literal.ul_literal_type", "Verif.Literal.hex_literal_type", "Verif.Literal.decimal_too_big", "Verif.Literal.char_literal_type", "Verif.Literal.odd_literals"], "note": "Value theorems for all four bases with any suffix; size and signedness of the type always ISO's. Exact type outside the cases where the compiler evaluates 1<<64; there ul and large hexadecimal literals become unsigned long long (ul_literal_type, hex_literal_type). Values from 2^64 saturate silently; character literals have type char; odd_literals lists accepted/mis-split spellings."},
 {"property": "C25", "status": "partial", "theorems": ["Verif.Struct.struct_sound", "Verif.Struct.struct_minimal", "Verif.Struct.calcStruct_total", "Verif.Struct.union_sound_partial", "Verif.Struct.type_aligned", "Verif.Struct.members_ok", "Verif.Struct.union_bitfield_unaligned", "Verif.Struct.bool_bitfield_asserts"], "note": "Structs of any member list and types of any nesting depth. Missing: a union ignores the alignment of its bit-fields (union_bitfield_unaligned); a _Bool bit-field trips an assertion (bool_bitfield_asserts). Minimality is for members that are not bit-fields."},
 {"property": "C26", "status": "partial", "theorems": ["Verif.Struct.bitfield_tight", "Verif.Bitfield.read_correct", "Verif.Bitfield.write_correct", "Verif.Bitfield.assign_read", "Verif.Bitfield.incdec_correct_partial", "Verif.Bitfield.bitfield_isolated", "Verif.Bitfield.static_init_correct", "Verif.Bitfield.full_width_clobbers", "Verif.Bitfield.assign_value_unreduced", "Verif.Bitfield.width64_undefined", "Verif.Bitfield.preinc_high_undefined"], "note": "Layout, reads, writes, ++/--, whole-structure isolation and static initialisers, for fields of 1 to 63 bits under the Safe condition on types. Missing: full-width signed fields in a wider unit (full_width_clobbers), width 64 (width64_undefined), prefix ++/-- at bit 31 and above, the value of an assignment expression (assign_value_unreduced); compound assignment."},
 {"property": "C27", "status": "partial", "theorems": ["Verif.Fold.common_size_sign", "Verif.Fold.cmp_size_sign", "Verif.Fold.common_exact_partial", "Verif.Fold.common_kind_tie", "Verif.Fold.ternary_type_partial", "Verif.Fold.ternary_sign"], "note": "Size and signedness of the common type are ISO's for every pair of integer types (operators and comparisons); exact type unless the operands are distinct kinds of one size (common_kind_tie). Conditional operator and folded sums: only where the kinds decide (ternary_sign, addsub_sign). Floating types not modelled."},
 {"property": "C28", "status": "partial", "theorems": ["Verif.Fold.numBop_correct", "Verif.Fold.addsub_correct_partial", "Verif.Fold.addsub_type_partial", "Verif.Fold.cmp_correct", "Verif.Fold.unary_correct", "Verif.Fold.shift_correct", "Verif.Fold.simplify_correct", "Verif.Fold.cmpOfCmp_correct", "Verif.Fold.addsub_sign", "Verif.Fold.addsub_sign_general", "Verif.Fold.fold_traps", "Verif.Fold.cmpOfCmp_nan"], "note": "Front-end folding of * / % & | ^ - ~ << >> and comparisons proved against ISO C for all integer operands; + and - only where the kinds decide (addsub_sign: 0 - 1u is folded to -1). Findings: traps in the compiler, NaN comparisons. Floating-point folding not modelled; back-end folding not modelled."},
 {"property": "C29", "status": "partial", "theorems": ["Verif.Init.flat_list_partial", "Verif.Init.flat_correct_partial", "Verif.Init.flat_designated_partial", "Verif.Init.leaves_segment", "Verif.Init.leading_zero_width_wrong", "Verif.Init.unnamed_bitfield_wrong", "Verif.Init.designated_braces_rejected", "Verif.Init.designated_string_rejected", "Verif.Init.whole_then_part_lost", "Verif.Init.empty_elements_loop"], "note": "Full for initialisers without designators on types without unnamed non-zero-width bit-fields and without nested structures that begin with a zero-width bit-field (both miscompiled, see findings leading_zero_width_wrong, unnamed_bitfield_wrong). With designators: termination, soundness (an expression for a whole object is lost if a later designator goes inside it), acceptance of designated scalar expressions. Which member of a union counts after two designators is not modelled."},
 {"property": "C30", "status": "partial", "theorems": ["Verif.Scope.variable_lookup", "Verif.Scope.undeclared_lookup", "Verif.Scope.typedef_lookup_partial", "Verif.Scope.struct_lookup", "Verif.Scope.enum_lookup", "Verif.Scope.inner_typedef_ignored", "Verif.Scope.inner_typedef_dropped", "Verif.Scope.typedef_does_not_hide", "Verif.Scope.valid_rejected", "Verif.Scope.tag_declaration_ignored"], "note": "Lookup of variables, enumerators, struct and enum tags is the visible declaration after any accepted history. Typedef names only when no inner block redefines a visible type name (that redefinition is silently dropped by the code: inner_typedef_ignored, inner_typedef_dropped). Further findings: typedef_does_not_hide, valid_rejected, tag_declaration_ignored."},
 {"property": "C31", "status": "partial", "theorems": ["Verif.Switch.switch_correct_partial", "Verif.Switch.switch_correct_32", "Verif.Switch.const_switch_correct", "Verif.Switch.case_label_partial", "Verif.Switch.unsigned_switch", "Verif.Switch.far_labels", "Verif.Switch.label_truncated"], "note": "Right for every label set when the controlling expression has at most 32 bits, and for 64 bits when label differences fit int64 and unsigned labels lie on one side of 2^63. Otherwise wrong: unsigned_switch, far_labels. Labels not representable in the (unpromoted) controlling type are truncated: label_truncated."},
 {"property": "C32", "status": "partial", "theorems": ["Verif.Cond.swap_correct", "Verif.Cond.swap_correct_int", "Verif.Cond.invert_correct", "Verif.Cond.invert_involutive", "Verif.Cond.invert_float_wrong", "Verif.Cond.calcConstCond_correct"], "note": "Swap is right for all values and inversion for integers (constant conditions too). Inverting a floating-point condition is wrong on NaN (invert_float_wrong); ssa.c:227 does it."},
 {"property": "C33", "status": "proved", "theorems": ["Verif.BbClean.clean_correct", "Verif.BbClean.clean_result", "Verif.BbClean.clean_trace"], "note": "remove_unnecessary_bb in full (all rounds); instructions opaque, integer comparisons ordered."},
 {"property": "C34", "status": "partial", "theorems": ["Verif.LinearScan.scan_noConflict", "Verif.LinearScan.scan_assigned", "Verif.LinearScan.scan_total", "Verif.Intervals.intervals_cover", "Verif.Intervals.flags_exact", "Verif.Intervals.living_complete", "Verif.Intervals.living_sound", "Verif.AllocSim.sim_step", "Verif.AllocSim.sim_progress", "Verif.AllocSim.alloc_preserves_partial", "Verif.AllocSim.x64_covers", "Verif.AllocSim.aarch64_covers", "Verif.AllocSim.riscv64_covers_partial", "Verif.AllocSim.riscv64_fs8_not_saved", "Verif.AllocSim.loopCall_miscompiled"], "note": "Disjointness of overlapping intervals is proved for every list; the whole pipeline is proved to preserve the program for Benign layouts. Not true in general: loopCall_miscompiled exhibits a while loop whose condition variable lives in a register destroyed by the first call of the body, and riscv64_fs8_not_saved a register nobody saves. The spilling rewrite is C70."},
 {"property": "C35", "status": "proved", "theorems": ["Verif.Frame.slot_in_frame", "Verif.Frame.slots_disjoint", "Verif.Frame.huge_frame_wrong"], "note": "Frame slots of aggregates and spilled registers: inside the frame, aligned, pairwise disjoint for every list of objects while the frame stays below 2 GiB (above that the int cast breaks it: huge_frame_wrong)."},
 {"property": "C36", "status": "proved", "theorems": ["Verif.Relax.relax_terminates", "Verif.Relax.relax_correct", "Verif.Relax.emit_slice", "Verif.Relax.jcc_extern_relocation_misplaced", "Verif.Relax.globl_undefined_jump", "Verif.Relax.cross_section_jump"], "note": "x86-64. Findings recorded: conditional jump to an external label, .globl of an undefined label, jumps between sections."},
 {"property": "C37", "status": "partial", "theorems": ["Verif.AsmExpr.expr_correct_partial", "Verif.AsmExpr.label_plus_accepted", "Verif.AsmExpr.sub_wrong", "Verif.AsmExpr.div_wrong", "Verif.AsmExpr.label_difference_drops_offset"], "note": "Grammar, precedence, associativity, folding of + and *, unary signs, label arithmetic. Missing: the code folds constant differences and quotients by addition and drops offsets in differences of labels (witnesses)."},
 {"property": "C38", "status": "partial", "theorems": ["Verif.RvAsm.assemble_correct_partial", "Verif.RvAsm.alui_rejects", "Verif.RvAsm.sw_wrong_offset", "Verif.RvAsm.add_zero_wrong", "Verif.RvAsm.srliw_reserved", "Verif.RvAsm.offset_truncated"], "note": "assemble_correct_partial: all modelled instructions whose operands satisfy Ok and are not in the listed Broken set; alui_rejects: out-of-range ALU immediates rejected. sw_wrong_offset, add_zero_wrong, srliw_reserved, offset_truncated show the exceptions are genuine encoder bugs."},
 {"property": "C39", "status": "proved", "theorems": ["Verif.LdSym.resolve_correct", "Verif.LdSym.resolve_no_error", "Verif.LdSym.symbolAddress_correct", "Verif.LdSym.archive_terminates", "Verif.LdSym.pull_needed", "Verif.LdSym.archive_loops"], "note": "Symbol tables as finite maps, iteration order of the unresolved table arbitrary. Uniqueness, choice of strong/first weak definition, addresses, no spurious duplicate errors, archive pulls needed and bounded (for a truthful index; archive_loops shows a wrong index makes the search endless)."},
 {"property": "C40", "status": "partial", "theorems": ["Verif.LdLayout.layout_correct_partial", "Verif.LdLayout.init_array_symbols", "Verif.LdLayout.bss_covered", "Verif.LdLayout.bss_beyond_segment", "Verif.LdLayout.text_align_512", "Verif.LdLayout.data_align_8192", "Verif.LdLayout.unknown_section_dropped"], "note": "Order, alignment, disjointness, contents after loading, header congruence for text alignments <= 256 and data alignments <= 4096; .bss fully covered only without padding (bss_covered); counterexamples for the rest."},
 {"property": "C41", "status": "partial", "theorems": ["Verif.Reloc.resolve_correct_partial", "Verif.Reloc.pcrel_pair_partial", "Verif.Reloc.calcAddr_correct_partial", "Verif.Reloc.pc32_truncated", "Verif.Reloc.branch_truncated", "Verif.Reloc.jal_link_lost", "Verif.Reloc.hi20_wraps", "Verif.Reloc.far_call_rejected", "Verif.Reloc.section_symbol_by_index"], "note": "resolve_correct_partial covers all 18 handled kinds of the three architectures with no bound on the number of relocations; Fits names what the linker does not check, and the findings (pc32_truncated, branch_truncated, jal_link_lost, hi20_wraps, far_call_rejected, section_symbol_by_index) show these gaps are real."},
 {"property": "C42", "status": "proved", "theorems": ["Verif.AsmExpr.dataBytes_correct"], "note": ""},
 {"property": "C43", "status": "proved", "theorems": ["Verif.CopyLoop.memcpy_correct", "Verif.CopyLoop.clear_correct", "Verif.CopyLoop.elemSize_spec", "Verif.CopyLoop.misaligned_size_wrong"], "note": "gen_memcpy/gen_clear for every size and every power-of-two alignment dividing it (as calc_struct_size guarantees)."},
 {"property": "C44", "status": "partial", "theorems": ["Verif.PhiMoves.moves_partial", "Verif.PhiMoves.faithful_independent", "Verif.PhiMoves.faithful_three", "Verif.PhiMoves.swap_correct", "Verif.PhiMoves.two_swaps_wrong", "Verif.PhiMoves.shift_wrong", "Verif.PhiMoves.null_dereference", "Verif.PhiMoves.null_dereference_acyclic"], "note": "Model of extract_cyclic_dependency/replace_phis. Proved: whenever no chain is reported the moves equal the parallel assignment (any number of phis); phis that do not read each other's destinations are right in any number (faithful_independent); up to three phis are right with any dependencies (faithful_three); the phis left for the next predecessor are the same ones. Refuted in general: two swaps at one join (two_swaps_wrong) and a shift of four variables without a cycle (shift_wrong) are miscompiled; some sets, also without a cycle, dereference a null pointer (null_dereference, null_dereference_acyclic)."},
 {"property": "C45", "status": "proved", "theorems": ["Verif.FileOut.fileman_exact"], "note": ""},
 {"property": "C46", "status": "proved", "theorems": ["Verif.FileIn.fgets_correct", "Verif.FileIn.getline_correct"], "note": "fgets for n >= 2."},
 {"property": "C47", "status": "proved", "theorems": ["Verif.Cond.x64_int_branch", "Verif.Cond.x64_float_branch", "Verif.Cond.a64_int_branch", "Verif.Cond.a64_float_branch", "Verif.Cond.rv_branch", "Verif.Cond.rv_cond"], "note": "x86-64, AArch64 and RISC-V jumps; materialised ordering on RISC-V."},
 {"property": "C48", "status": "proved", "theorems": ["Verif.CallConv.caller_callee_agree", "Verif.CallConv.pushed_eq", "Verif.CallConv.enum_eq_alloc", "Verif.CallConv.caller_area", "Verif.CallConv.stack_args_disjoint"], "note": "All targets, all argument lists (types with alignment at most 8, as type.c has)."},
 {"property": "C49", "status": "partial", "theorems": ["Verif.CallConv.va_args_partial", "Verif.CallConv.rv_args_partial", "Verif.CallConv.va_struct_return_wrong", "Verif.CallConv.va_struct_param_wrong", "Verif.CallConv.rv_struct_arg_wrong", "Verif.CallConv.rv_flo_param_wrong", "Verif.CallConv.rv_struct_param_base_wrong"], "note": "Proved for functions without struct result / struct named parameters (RISC-V: also no struct variable arguments and at most 8 FP named parameters). Refuted otherwise by the witnesses."},
 {"property": "C50", "status": "proved", "theorems": ["Verif.Frame.x64_call_aligned", "Verif.Frame.x64_areas", "Verif.Frame.x64_areas_noframe", "Verif.Frame.riscv_call_aligned", "Verif.Frame.riscv_areas"], "note": "x86-64 and RISC-V prologues. AArch64 is not modelled."},
 {"property": "C51", "status": "proved", "theorems": ["Verif.RegFlow.analyze_exact", "Verif.RegFlow.insertVec_spec"], "note": "Termination bound and both inclusions, for arbitrary graphs."},
 {"property": "C52", "status": "partial", "theorems": ["Verif.RvAsm.li_correct", "Verif.RvAsm.li_sp_wrong"], "note": "li_correct: for every 64-bit constant and rd except the compressed-form collision shown in li_sp_wrong (li sp with a lui-sized constant is emitted as c.addi16sp)."},
 {"property": "C53", "status": "partial", "theorems": ["Verif.Macro.arguments_partial", "Verif.Macro.arguments_variadic", "Verif.Macro.arguments_variadic_none", "Verif.Macro.subst_partial", "Verif.Macro.empty_argument_rejected", "Verif.Macro.argument_reads_ahead_wrong", "Verif.Macro.self_argument_wrong", "Verif.Macro.empty_paste_wrong", "Verif.Macro.stringize_backslash_wrong", "Verif.Macro.vaOpt_wrong"], "note": "Splitting of arguments is proved for every argument list and depth, variadic included; f() with one parameter is rejected. Substitution is proved for every non-variadic replacement list without an empty left operand of ##; the counterexamples show where the code deviates from ISO C."},
 {"property": "C54", "status": "partial", "theorems": ["Verif.StaticInit.static_image_partial", "Verif.StaticInit.static_init_partial", "Verif.StaticInit.image_unique", "Verif.StaticInit.union_two_members_wrong"], "note": "static_image_partial: image of the flattened initialiser; static_init_partial: from the source initialiser (no designators) through the flattening of C29; image_unique: the image fixes every byte. Missing: bit-fields (C06) and flexible array members; union_two_members_wrong is a bug that breaks the full statement."},
 {"property": "C55", "status": "proved", "theorems": ["Verif.StmtGen.compiled_result", "Verif.StmtGen.compiled_stops", "Verif.StmtGen.compiled_effects", "Verif.StmtGen.blocks_well_formed", "Verif.StmtGen.eval_parse"], "note": "For bodies without statement expressions, inline assembler and inlined calls whose local variables live in virtual registers; operations (arithmetic, memory, calls) are arbitrary functions. Expressions whose unsequenced operands conflict (undefined in C) are excluded."},
 {"property": "C56", "status": "partial", "theorems": ["Verif.IrFold.bop_correct", "Verif.IrFold.bop_folds", "Verif.IrFold.bop_canon", "Verif.IrFold.unary_correct", "Verif.IrFold.foldUop_correct", "Verif.IrFold.foldCast_correct", "Verif.IrFold.foldCast_canon", "Verif.IrFold.genCast_correct", "Verif.IrFold.genCast_canon_partial", "Verif.IrFold.cond_correct", "Verif.IrFold.unsigned_div_wrong", "Verif.IrFold.unsigned_eq_wrong", "Verif.IrFold.widened_shr_wrong", "Verif.IrFold.narrowed_eq_wrong", "Verif.IrFold.narrowed_div_wrong", "Verif.IrFold.neg_flag_wrong"], "note": "Correct when the constants are held in canonical form (sign- or zero-extended from their width according to the signedness of the instruction). bop results keep that form; casts do not always (genCast_canon_partial): a cast to unsigned of the same or a greater size keeps -1, the optimizer's narrowing cast keeps the upper bits, and the flag of IR_NEG is lost; the *_wrong theorems give the miscompiled expressions."},
 {"property": "C57", "status": "partial", "theorems": ["Verif.Dce.removeUnused_refines_partial", "Verif.Dce.removeUnused_complete", "Verif.Dce.volatile_load_removed", "Verif.Dce.asm_output_removed", "Verif.Dce.volatile_store_removed"], "note": "Holds when the removed instructions have no effect but their result and registers living in memory are kept. The code also removes volatile loads, asm with an unused output, and stores to volatile locals (volatile_load_removed, asm_output_removed, volatile_store_removed)."},
 {"property": "C58", "status": "proved", "theorems": ["Verif.Edges.fromBbs_exact", "Verif.Edges.clearUnreached_refines"], "note": ""},
 {"property": "C59", "status": "proved", "theorems": ["Verif.Peephole.peephole_run", "Verif.Peephole.peephole_refines", "Verif.Peephole.in_place_wrong"], "note": "The hypotheses (sums and addresses are written to registers not used as operands of the same or earlier sums; widths are those of the registers) are what the code generator produces; in_place_wrong shows that the first one is needed. alloca's placeholder sum (builtin.c:316) is outside them."},
 {"property": "C60", "status": "proved", "theorems": ["Verif.Ssa.makeSsa_refines", "Verif.Ssa.makeSsa_single"], "note": "Whole pass: traversal order, renaming, merge versions, phi operands; liveness from C51 and edges from C58."},
 {"property": "C61", "status": "proved", "theorems": ["Verif.CopyProp.copyProp_refines", "Verif.CopyProp.makeSsa_strict", "Verif.CopyProp.ssa_copyProp_refines"], "note": "copyProp_refines holds for every strict SSA function; makeSsa_strict and ssa_copyProp_refines show that the SSA form make_ssa yields is strict when the source function reads nothing but parameters before assigning it. Constant folding of one instruction or jump is a parameter assumed to keep its meaning (C56). The arguments repeated in IR_CALL are not modelled."},
 {"property": "C62", "status": "partial", "theorems": ["Verif.ResolvePhis.resolvePhis_partial", "Verif.ResolvePhis.resolvePhis_full", "Verif.ResolvePhis.movable_three", "Verif.ResolvePhis.movable_independent", "Verif.ResolvePhis.flips_integers", "Verif.ResolvePhis.stale_edges_wrong", "Verif.ResolvePhis.nan_wrong"], "note": "For every function whose edges are exact, whose jump conditions can be inverted, with no conditional jump to the next block and whose phi functions have right moves (proved for up to three phi functions per block and for independent ones): the pass ends, leaves no phi function, and the function does the same. stale_edges_wrong and nan_wrong show that the code as it is breaks the claim after a folded jump and for NaN operands."},
 {"property": "C63", "status": "partial", "theorems": ["Verif.Optimize.optimize_correct_partial"], "note": "For every function that assigns each register before reading it (parameters excepted) and on whose run nothing undefined happens: all passes end and the code left behaves the same (returns, stops, passes through the same states). Missing: functions in which copy propagation folds a conditional jump (ResolvePhis.stale_edges_wrong shows the code as it is breaks them) and blocks merging more than three values that depend on each other (PhiMoves.two_swaps_wrong)."},
 {"property": "C64", "status": "proved", "theorems": ["Verif.Optimize.optimizePlain_correct"], "note": "For every function whose jumps stay inside it, whose registers in memory are marked as referenced and whose instructions with a result (calls excepted) have no other effect: the passes end and the code left behaves the same. The hypotheses of peephole (Clean) say that a sum is used by the instruction it is merged into and that its size fits."},
 {"property": "C65", "status": "proved", "theorems": ["Verif.X64Sel.emit_correct", "Verif.X64Sel.emitAll_correct", "Verif.X64Sel.jmp_correct", "Verif.X64Sel.legalize_correct", "Verif.X64Sel.legalize_legal", "Verif.X64Sel.emit_total", "Verif.X64Sel.rel_exists", "Verif.X64Sel.mod8_asserts", "Verif.X64Sel.mod16_wrong", "Verif.X64Sel.div8_wrong", "Verif.X64Sel.div16_wrong"], "note": "Floating point, calls, jump tables and inline assembly are outside the property. Ok/AllocOk are what C34's allocator gives: registers reserved by detect_extra_occupied are not those of values alive at the instruction. Divisions below 32 bits are wrong but unreachable (negative theorems)."},
 {"property": "C66", "status": "partial", "theorems": ["Verif.X64Enc.enc_decode_partial", "Verif.X64Enc.encAll_decode_partial", "Verif.X64Enc.run_enc_partial", "Verif.X64Enc.norm_exec", "Verif.X64Enc.enc_fits", "Verif.X64Enc.jmp_decode", "Verif.X64Enc.jcc_decode", "Verif.X64Enc.abs_wrong", "Verif.X64Enc.abs_reg_wrong", "Verif.X64Enc.subq_wrong", "Verif.X64Enc.lea_r12_wrong", "Verif.X64Enc.lea_r13_wrong", "Verif.X64Enc.mem_r12_wrong", "Verif.X64Enc.lea_rsp_index_wrong", "Verif.X64Enc.load_index_wrong", "Verif.X64Enc.neg8_wrong", "Verif.X64Enc.ah_wrong", "Verif.X64Enc.ah_r8_wrong", "Verif.X64Enc.add_index_wrong", "Verif.X64Enc.jmp_rsp_wrong", "Verif.X64Enc.offset_wrong", "Verif.X64Enc.movq_imm_wrong", "Verif.X64Enc.load_rip_wrong"], "note": "Proved for the operands in OkIns/Ok; the excluded ones are wrong in the code, each with a witness theorem: base r12/r13 in lea/add/sub/inc/dec, %ah with movI/md/set/movx, constant addresses, 8-bit neg/not, indexed loads below 64 bits with r8-r15, offsets beyond 32 bits, subq with an offset. asm_mov_sr is not modelled, and the parser is C76."},
 {"property": "C67", "status": "partial", "theorems": ["Verif.X64Code.machine_code_partial", "Verif.X64Code.machine_code_total_partial", "Verif.X64Code.machine_jump_partial", "Verif.X64Code.abs_load_wrong"], "note": "Without loads and register stores at constant addresses (the code accesses address 0, abs_load_wrong), 8-bit neg/not, and frame offsets beyond 32 bits. The assembly text between compiler and assembler is C76."},
 {"property": "C68", "status": "partial", "theorems": ["Verif.Elab.build_correct_partial", "Verif.Elab.built_values_fit", "Verif.Elab.built_temps", "Verif.Elab.boolInc_wrong", "Verif.Elab.boolShift_wrong", "Verif.Elab.mergedDeref_wrong", "Verif.Elab.commaBool_wrong", "Verif.Elab.ptrDiff_wrong", "Verif.Elab.ternSign_wrong"], "note": "Proved for every expression outside a list of shapes on which the compiler is wrong (fine); each is a theorem *_wrong. Floating point, struct members, calls and bit-fields are not in the expression language."},
 {"property": "C69", "status": "partial", "theorems": ["Verif.ExprGen.genExpr_correct_partial", "Verif.ExprGen.genCond_correct_partial", "Verif.ExprGen.compileExpr_correct_partial", "Verif.ExprGen.castConst_wrong", "Verif.ExprGen.castWide_wrong", "Verif.ExprGen.mergedStore_wrong", "Verif.ExprGen.divMin_stops"], "note": "Integer and pointer expressions without calls, members, bit-fields and floating point; wrong for casts of constants that are values of assignments, merged dereferences, and values read after they changed (undefined in C)"},
 {"property": "C70", "status": "partial", "theorems": ["Verif.Spill.spill_preserves_partial", "Verif.Spill.spill_shape", "Verif.Spill.frame_register_kept", "Verif.Spill.pass_sim", "Verif.Spill.inv_pass", "Verif.Spill.inv_live"], "note": "Model of the whole loop of alloc_physical_registers including the rewrite (two-round cases such as a = a + b with both spilled), with liveness computed once as in the code. Holds for layouts that are Benign (as C34; AllocSim.loopCall_miscompiled shows the code is wrong otherwise). That the allocator does not stop at the assertion of spill_vreg is not proved: the theorems speak about runs that end."},
 {"property": "C71", "status": "proved", "theorems": ["Verif.Spill.alloc_ends", "Verif.Spill.loop_ends", "Verif.Spill.pass_total"], "note": "Explicit bound: nv * (3 * ops + 1) + 3 * ops + 1 rounds; the loop then has ended or stopped at an assertion."},
 {"property": "C72", "status": "partial", "theorems": ["Verif.WasmGen.expr_code_partial", "Verif.WasmGen.cond_code_partial", "Verif.WasmGen.wasm_ptr_inc_backwards", "Verif.WasmGen.wasm_imm_wrong", "Verif.WasmGen.wasm_char_preinc_wide", "Verif.WasmGen.wasm_bool_preinc_two", "Verif.WasmGen.wasm_narrow_shift_wide", "Verif.WasmGen.wasm_assign_through_assignment_invalid", "Verif.WasmGen.wasm_inc_through_assignment_invalid"], "note": "Proved for trees as the front end builds them, with wrapping arithmetic; excluded (and shown wrong by theorems) are: assignment whose left side contains the value of an assignment, ++ of _Bool, used ++x of narrow objects in memory, ++ of local pointers whose step reads differently as a signed number, shifts in narrow types. Floating point, structs, bit-fields, calls through pointers and variadic calls are not modelled."},
 {"property": "C73", "status": "partial", "theorems": ["Verif.WasmGen.stmt_code_partial", "Verif.WasmGen.wasm_switch64_wraps", "Verif.WasmGen.wasm_switch_unsigned_label_malformed"], "note": "Proved for statements over the expressions of C72, as part of a function (not its last statement; that is C74). Excluded, and shown wrong by theorems: labels beyond signed 32 bits, tables for 64-bit values. Labels of a switch stand at the top of its body or directly in blocks in it, not inside loops or ifs; asm, goto, clearing of aggregates are not modelled."},
 {"property": "C74", "status": "partial", "theorems": ["Verif.WasmGen.func_code_partial", "Verif.WasmAlloc.frame_disjoint", "Verif.WasmAlloc.frame_aligned", "Verif.WasmAlloc.locals_distinct", "Verif.WasmAlloc.locals_typed", "Verif.WasmGen.wasm_const_if_traps", "Verif.WasmGen.wasm_if_loop_invalid", "Verif.WasmGen.wasm_if_without_else_malformed", "Verif.WasmGen.wasm_if_zero_invalid", "Verif.WasmGen.wasm_ref_param_after_struct_wrong", "Verif.WasmGen.wasm_frame_align16_wrong"], "note": "Functions whose parameters are integers and pointers (no structures, no variadic arguments, no floating point, no setjmp) for the code; allocation without restriction. The last statement must return on all paths in the shapes the compiler recognizes or be left by return (EndOk); for others the code is wrong (theorems)."},
 {"property": "C75", "status": "partial", "theorems": ["Verif.Reach.reach_sound_partial", "Verif.Reach.main_returns_partial", "Verif.Reach.main_ends", "Verif.Reach.duff_reaches_end", "Verif.Reach.goto_reaches_end"], "note": "Labels inside statements that the analysis passes over are excluded (Vis); with them the claim is false (duff_reaches_end, goto_reaches_end). Calls of noreturn functions, asm and statement expressions are not modelled."},
 {"property": "C76", "status": "partial", "theorems": ["Verif.X64Text.read_write_partial", "Verif.X64Text.write_inj", "Verif.X64Text.line_read", "Verif.X64Text.operand_show", "Verif.X64TextCode.machine_text_partial", "Verif.X64TextCode.assemble_write", "Verif.X64Text.rip_neg_wrong", "Verif.X64Text.store_neg_wrong", "Verif.X64Text.store_high_wrong", "Verif.X64Text.dropped_wrong", "Verif.X64Text.label_rest_wrong", "Verif.X64Text.jmp_rest_wrong", "Verif.X64Text.offset_expr_wrong"], "note": "Proved for the instructions in Writable. Left out because the code is wrong: labels with a negative offset (rip_neg_wrong), constant addresses outside 0..2^32-1 (store_neg_wrong, store_high_wrong). The composition with C67 is for blocks without their jump and under C67's conditions. What a user may write beyond what the compiler writes is covered by findings only. Directives other than by C37's expressions, and asm statements, are not modelled."},
 {"property": "C77", "status": "partial", "theorems": ["Verif.ExprParse.parse_iff", "Verif.ExprParse.c11_partial", "Verif.ExprParse.grammar_unambiguous", "Verif.ExprParse.two_operators", "Verif.ExprParse.prefix_operand", "Verif.ExprParse.right_operators", "Verif.ExprParse.spell_parse", "Verif.ExprParse.const_partial", "Verif.ExprParse.sizeof_complit_wrong", "Verif.ExprParse.const_cond_wrong", "Verif.ExprParse.sizeof_index_wrong", "Verif.ExprParse.asg_cond_wrong"], "note": "parse_iff: the parser equals an explicit grammar in both directions. Partial with respect to C11: sizeof of a compound literal and conditional operators at the top of constant expressions are refused (theorems *_wrong), a few non-C11 forms are accepted (marked in the grammar). Type names, literals and braces are single tokens; what the actions compute from the tree is C19/C56/C68."},
 {"property": "C78", "status": "partial", "theorems": ["Verif.Declarator.declare_partial", "Verif.Declarator.den_unique", "Verif.Declarator.void_param_refused", "Verif.Declarator.double_paren_wrong", "Verif.Declarator.double_paren_fn_wrong", "Verif.Declarator.abstract_fn_wrong", "Verif.Declarator.repeated_qualifier_wrong"], "note": "Excluded because the code is wrong there: parentheses directly inside parentheses followed by a suffix (double_paren_wrong, double_paren_fn_wrong), abstract function declarators not introduced by a parenthesised pointer (abstract_fn_wrong), repeated qualifiers (repeated_qualifier_wrong). Not modelled: variable-length arrays, qualifiers and static inside brackets, storage classes."},
 {"property": "C79", "status": "partial", "theorems": ["Verif.Spec.words_partial", "Verif.Spec.accepted_iff", "Verif.Spec.named_ok", "Verif.Spec.no_type", "Verif.Spec.label", "Verif.Spec.extra_wrong", "Verif.Spec.const_double_wrong", "Verif.Spec.mixed_wrong", "Verif.Spec.lenient_wrong"], "note": "Qualifiers of float, double and long double are lost by the code (const_double_wrong). Words accepted beyond C11: extra_wrong, mixed_wrong, lenient_wrong. Contents of struct/enum/typeof are single tokens."},
 {"property": "C80", "status": "partial", "theorems": ["Verif.WLink.func_ref_partial", "Verif.WLink.duplicate_refused", "Verif.WLink.undefined_refused", "Verif.WLink.export_defined", "Verif.WLink.pointer_ref_partial", "Verif.WLink.data_ref_partial", "Verif.WLink.data_image", "Verif.WLink.data_bounds", "Verif.WLink.data_apart", "Verif.WLink.data_aligned_partial", "Verif.WLink.segInfo_right", "Verif.WLink.patch_unsigned", "Verif.WLink.patch_fits", "Verif.WLink.patch_signed", "Verif.WLink.patch_word", "Verif.WLink.read_unsigned", "Verif.WLink.read_signed", "Verif.WLink.addend_ok", "Verif.WLink.addend_negative_wrong", "Verif.WLink.static_wrong", "Verif.WLink.align_wrong"], "note": "References: names must be clean, i.e. all symbols of a name have one kind and no local symbol shares its name with a global one; static_wrong shows the code is wrong otherwise. align_wrong, addend_negative_wrong: further defects. Hypotheses on the files: function symbols point into the code, archive indexes are truthful, segments of one file do not overlap. Not modelled: tags, function types, constructors, globals other than by name, and that messages for archive members are not counted."},
 {"property": "C81", "status": "partial", "theorems": ["Verif.Elf.read_ok", "Verif.Elf.sections_ok", "Verif.Elf.defined_ok", "Verif.Elf.undefined_ok_partial", "Verif.Elf.relocs_ok_partial", "Verif.Elf.emit_ok_partial", "Verif.Elf.locals_first", "Verif.Elf.labels_ok", "Verif.Elf.twice_refused", "Verif.Elf.globl_undefined_wrong", "Verif.Elf.empty_section_fails"], "note": "Proved for all sources that define the names they declare and put no label in an empty section; the other two cases are shown to go wrong. R_RISCV_RELAX is not modelled."},
 {"property": "C82", "status": "partial", "theorems": ["Verif.StmtParse.parse_total", "Verif.StmtParse.body_complete", "Verif.StmtParse.body_sound_partial", "Verif.StmtParse.one_reading", "Verif.StmtParse.jumps_attached", "Verif.StmtParse.cases_recorded", "Verif.StmtParse.accept_iff_partial", "Verif.StmtParse.labels_different_partial", "Verif.StmtParse.missing_body_accepted", "Verif.StmtParse.converted_duplicate_accepted", "Verif.StmtParse.different_labels_refused"], "note": "Proved for all texts and trees: complete, sound up to missing bodies, unambiguous, jumps attached, labels recorded. Partial because a missing body before a closing brace is accepted (missing_body_accepted) and because labels are compared half-converted (converted_duplicate_accepted, different_labels_refused): accept_iff_partial and labels_different_partial ask for labels in the range of the type of the switch. Expressions and declarations are single tokens."},
 {"property": "C83", "status": "partial", "theorems": ["Verif.Inline.inlined_as_called_partial", "Verif.Inline.embedded_locals_own"], "note": "Refinement of calls by embedded bodies for all programs and any number of steps; locals are reached by name only (no pointers), and switch, statement expressions, compound literals and variable-length arrays are not modelled."},
 {"property": "C84", "status": "partial", "theorems": ["Verif.CallArgs.prepared_as_written_partial", "Verif.CallArgs.prepared_evaluates", "Verif.CallArgs.prepared_calls_plain", "Verif.CallArgs.implicit_u64_conversion_calls_twice", "Verif.CallArgs.bitfield_opassign_undoes_call"], "note": "Proved for expressions without structures, compound literals and bit-fields. Fails for implicit conversions of floating values to unsigned 64-bit types on x64 (operand computed twice) and for op= on bit-fields (what a call on the right does to the storage unit is undone): proved as negations."},
 {"property": "C85", "status": "partial", "theorems": ["Verif.Driver.status_every_schedule", "Verif.Driver.object_every_schedule", "Verif.Driver.text_every_schedule", "Verif.Driver.failure_leaves_partial", "Verif.Driver.nothing_keeps_running", "Verif.Driver.schedules_are_finite", "Verif.Driver.never_stuck_partial", "Verif.Driver.always_finishes_partial", "Verif.Driver.hangs_without_assembler", "Verif.Driver.stale_object_left", "Verif.Driver.partial_text_left", "Verif.Driver.executable_every_schedule", "Verif.Driver.no_temporary_left"], "note": "Status, outputs, absence of leftovers and termination for every schedule. Missing: freedom from deadlock when the assembler dies before it has read its input and the text exceeds the pipe, and removal of a stale object when the assembler fails; both are false (hangs_without_assembler, stale_object_left)."},
 {"property": "C86", "status": "proved", "theorems": ["Verif.ArFile.symbol_found", "Verif.ArFile.unique_symbol_found", "Verif.ArFile.last_entry_wins", "Verif.ArFile.member_read", "Verif.ArFile.loaded_once", "Verif.ArFile.request_gets_member", "Verif.ArFile.later_member_taken", "Verif.ArFile.no_table_accepted"], "note": "symbol_found, unique_symbol_found: names and offsets; member_read, request_gets_member: what the object reader gets; loaded_once: over all request sequences. last_entry_wins describes names listed twice. Findings: later_member_taken, no_table_accepted. Not modelled: malformed size fields with signs, I/O errors other than short files."},
 {"property": "C87", "status": "partial", "theorems": ["Verif.TypeCheck.silent_is_allowed_partial", "Verif.TypeCheck.allowed_is_silent_partial", "Verif.TypeCheck.cast_iff", "Verif.TypeCheck.assignment_is_allowed_partial", "Verif.TypeCheck.allowed_assignment_partial", "Verif.TypeCheck.scalars_only_warned", "Verif.TypeCheck.structs_are_errors", "Verif.TypeCheck.inner_const_unchecked", "Verif.TypeCheck.array_const_dropped", "Verif.TypeCheck.volatile_dropped", "Verif.TypeCheck.enums_mixed", "Verif.TypeCheck.hidden_tag_accepted", "Verif.TypeCheck.function_to_void", "Verif.TypeCheck.unprototyped_accepted", "Verif.TypeCheck.bool_from_pointer_warned", "Verif.TypeCheck.unprototyped_inside_warned"], "note": "silent_is_allowed_partial and allowed_is_silent_partial against C11 6.2.7/6.5.16.1 for types of any depth; cast_iff is complete; the hypotheses exclude exactly the findings: const below the first level (inner_const_unchecked, array_const_dropped), volatile (volatile_dropped), enumerations (enums_mixed), hidden tags (hidden_tag_accepted), function and void pointers (function_to_void), functions without prototypes (unprototyped_accepted), _Bool from pointers (bool_from_pointer_warned). Not modelled: variable length arrays beyond their relaxed length, const members of structures."},
 {"property": "C88", "status": "partial", "theorems": ["Verif.StrLit.narrow_string_partial", "Verif.StrLit.wide_string_partial", "Verif.StrLit.char_constant_partial", "Verif.StrLit.wide_char_constant", "Verif.StrLit.hex_escape_cut", "Verif.StrLit.question_mark_rejected", "Verif.StrLit.wide_escape_twice", "Verif.StrLit.wide_zero_cuts", "Verif.StrLit.wide_hex_cut", "Verif.StrLit.quote_at_end_reads_beyond"], "note": "Narrow strings and character constants: any elements but \\? and hexadecimal escapes of more than two digits. Wide strings: source characters and simple escapes but \\? and \\\\. L'c' for every code below 0x110000. What is missing is false of the code and stated as findings: hex_escape_cut, question_mark_rejected, wide_escape_twice, wide_zero_cuts, wide_hex_cut, quote_at_end_reads_beyond."},
 {"property": "C89", "status": "partial", "theorems": ["Verif.Fp.floor_partial", "Verif.Fp.ceil_partial", "Verif.Fp.floor_ceil_special", "Verif.Fp.frexp_partial", "Verif.Fp.ldexp_partial", "Verif.Fp.ldexp_overflow", "Verif.Fp.fabs_spec", "Verif.Fp.signbit_spec", "Verif.Fp.copysign_spec", "Verif.Fp.finite_iff", "Verif.Fp.isnan_isinf_partial", "Verif.Fp.modf_partial", "Verif.Fp.modf_infinite", "Verif.Fp.round_below_half", "Verif.Fp.floor_subnormal", "Verif.Fp.ceil_subnormal", "Verif.Fp.frexp_subnormal", "Verif.Fp.ldexp_underflow", "Verif.Fp.signaling_nan_infinite"], "note": "floor, ceil, frexp, modf: all numbers but subnormal ones; ldexp: number and result normal, or overflow; isnan and isinf: all but signaling NaNs. The remaining cases are false of the code: floor_subnormal, ceil_subnormal, frexp_subnormal, ldexp_underflow, signaling_nan_infinite, round_below_half. Comparisons of doubles by the machine are trusted."},
 {"property": "C90", "status": "partial", "theorems": ["Verif.MemStream.memstream_holds_partial", "Verif.MemStream.fmemopen_fits", "Verif.MemStream.reads_in_order", "Verif.MemStream.fmemopen_safe_partial", "Verif.MemStream.gigabyte_corrupts", "Verif.MemStream.seek_corrupts", "Verif.MemStream.seek_reads_beyond", "Verif.MemStream.close_changes_input", "Verif.MemStream.empty_memstream", "Verif.MemStream.lost_without_memory"], "note": "open_memstream: some but less than 2^30 bytes, realloc succeeds. fmemopen: all writes and flushes; with seeks, positions inside the buffer. What is missing is false of the code: gigabyte_corrupts, seek_corrupts, seek_reads_beyond, close_changes_input, empty_memstream, lost_without_memory."},
 {"property": "C91", "status": "partial", "theorems": ["Verif.Lines.one_line_partial", "Verif.Lines.all_lines_partial", "Verif.Lines.line_ends_alike", "Verif.Lines.backslash_before_empty"], "note": "The full statement fails: a line that ends with two backslashes before an empty line loses both (backslash_before_empty). Proved for all files without that pattern; the file must not end with a continued line, which C does not define. Memory is always there; bytes are natural numbers."},
 {"property": "C92", "status": "partial", "theorems": ["Verif.Opt.command_line_read", "Verif.Opt.call_progress", "Verif.Opt.tables_ok", "Verif.Opt.codes_distinct", "Verif.Opt.lib_joined_partial", "Verif.Opt.lib_separate_undefined", "Verif.Opt.dash_is_operand", "Verif.Opt.wcc_debug_takes_source"], "note": "optparse and the option tables: full. Of what the programs do with the options only -l of the driver is modelled: '-l foo' in two words is undefined behaviour (lib_separate_undefined); the driver's code for '-' is dead (dash_is_operand); wcc -g and -O take the next word (wcc_debug_takes_source). -fuse-ld's extra word is not modelled."},
 {"property": "C93", "status": "partial", "theorems": ["Verif.Misc.mode_strings", "Verif.Misc.getenv_value", "Verif.Misc.getenv_none", "Verif.Misc.strdup_copies", "Verif.Misc.strndup_partial", "Verif.Misc.strndup_reads_beyond", "Verif.Misc.calloc_partial", "Verif.Misc.calloc_too_small", "Verif.Misc.dirname_partial", "Verif.Misc.dirname_root", "Verif.Misc.dirname_slash", "Verif.Misc.classes_agree", "Verif.Misc.classes_listed", "Verif.Misc.case_mapping"], "note": "Mode strings, getenv, strdup and the character classes: full. The full statement fails for strndup with a size behind the object (strndup_reads_beyond), calloc when the product wraps (calloc_too_small) and dirname of names in the root or with a slash at the end (dirname_root, dirname_slash); proved otherwise. malloc is a parameter."},
 {"property": "C94", "status": "proved", "theorems": ["Verif.Malloc.realloc_moves", "Verif.Malloc.realloc_fails", "Verif.Malloc.realloc_zero", "Verif.Malloc.realloc_ends", "Verif.Malloc.contents_kept"], "note": "On the allocator model of C03, same bounds (requests up to 2^63-8192 bytes, heap below 64 GiB). Contents are compared in units of 16 bytes; the null pointer case, which is malloc, is not modelled separately."},
 {"property": "C95", "status": "partial", "theorems": ["Verif.Mkstemp.template_filled", "Verif.Mkstemp.template_required", "Verif.Mkstemp.every_name", "Verif.Mkstemp.refused_but_changed"], "note": "The last part fails: a refused template may have lost some X (refused_but_changed). Before the call of open; the code tries one name only and returns -1 if the file exists. Suffix lengths are not negative."},
 {"property": "C96", "status": "proved", "theorems": ["Verif.ErrorLine.caret_under_position", "Verif.ErrorLine.no_caret_outside", "Verif.ErrorLine.mark_width"], "note": "Model of the bytes written; characters one column wide except tabs. Finding: the mark may run past the end of the line."}
]}
