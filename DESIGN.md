# Design: a Lean 4 model of tyfkda/xcc

xcc is a C tool chain (cpp, cc1, as, ld, the xcc/wcc drivers) with its own libc
(`libsrc`).  The model is a set of independent Lean modules, one directory per
area, each stating in this order

* the model: the code, function by function; every definition cites file and lines, and
  says where it simplifies;
* the specification, written without the model's helpers (ISO C, POSIX, the ELF and
  RISC-V manuals, or "what a list / finite map / stack would do");
* helper lemmas;
* the property theorems, with `example`s showing that their hypotheses are met by
  concrete, non-trivial states;
* the findings: theorems that show, with a witness, where the code violates the property.

Conventions: undefined behaviour, a failed assertion and a reported error are a distinct
outcome (`none`), or, where the compiler evaluates an undefined expression, an arbitrary
parameter over which the theorems quantify. Loops are structural recursions or take fuel,
and a theorem shows that the fuel suffices for every input, so termination is proved too.
A theorem whose name ends in `_partial` proves less than its property says; the comment
and the manifest note say what is missing.

## Trusted base

* Lean's kernel; no axioms beyond `propext`, `Classical.choice`, `Quot.sound`.
  No `sorry`, `admit`, `native_decide`, `bv_decide`, no axioms of our own.
* The reading of the C code: the repository is not built or run.  C `int` is
  32 bits, `long`/`size_t`/pointers 64 bits, `char` is signed, two's complement
  (the configuration of the x86-64 target).
* Out-of-memory of the compiler's own `malloc` is not modelled (`*_or_die`
  exits), nor are diagnostics' texts, floating point arithmetic (only the
  decision logic around it), the operating system, or timing.

## Plan per property

| id | model | proof |
|----|-------|-------|
| C01 | `qsort` as recursion over index ranges of a list with swap | sorted + permutation by strong induction on range length; fuel shown sufficient |
| C02 | `bsearch` loop over (base, nmemb) | loop invariant: match, if any, is in the window |
| C03 | K&R allocator over a free list of (address,size) and an abstract `sbrk` | invariant over op lists: blocks tile the arenas; overflow of `nbytes+15` witnessed separately |
| C04 | byte loops over memory `Nat → UInt8` | induction on n for both directions |
| C05 | loops over NUL-terminated lists | equality with list specifications; negation witnesses where the code deviates |
| C06 | `_strtoull_sub` loop | invariant: accumulator = value of prefix or saturated |
| C07 | FILE write buffer, write outcome as an oracle list | invariant: emitted ++ buffered = accepted; witness for short writes |
| C08 | FILE read buffer | refinement to position in file |
| C09 | `_memwrite` memory stream | refinement to "prefix of the total output" |
| C10 | digit generation and conversion layout of `vfprintf` | digits ↔ value; count of characters |
| C11 | three-word arithmetic | equality to arithmetic modulo 2^48, lifted to n calls |
| C12 | handler table | refinement to a stack |
| C13 | open-addressing table with tombstones | refinement to a finite map over op lists |
| C14 | name table | injectivity invariant over histories |
| C15 | vector with capacity | refinement to `List` |
| C16 | encoders | decode∘encode = id by induction on value |
| C17 | `escape`/`unescape_string` | round-trip by induction on the byte string |
| C18 | `wrap_value` on `Int` | congruence + range |
| C19 | `join_paths` | refinement to component-stack semantics |
| C20 | `process_directive` condition stack | refinement to a parse tree semantics |
| C21 | Pratt parser on tokens | parse (print e) = eval e by induction on e |
| C22 | `macro_expand`/`subst` with hide sets kept per token address | multiset (hydra) termination measure; negation witness for history independence |
| C23 | `get_op_token` | longest-prefix characterisation |
| C24 | `literal` type selection | against ISO C table |
| C25 | `calc_struct_size` | invariant over members, minimality |
| C26 | `calc_bitfield_size`, shifts/masks | bit-level extensionality |
| C27 | `cast_numbers` | against ISO C conversion rules |
| C28 | folding functions | equality with two's complement semantics, negation witnesses |
| C29 | index odometer `find_next_indices`, designators, storing in the tree | soundness and completeness against an inductive reading of ISO 6.7.9; corollary: leaf enumeration |
| C30 | scope chain | innermost binding |
| C31 | dispatch code as decision tree | tree evaluation = lookup, by strong induction |
| C32 | condition codes | case analysis, all operands |
| C33 | CFG clean-up passes | simulation on traces |
| C34 | linear scan | invariant over processed intervals |
| C35 | frame layout fold | disjointness invariant |
| C36 | relaxation loop | monotone growth ⇒ termination; post-condition |
| C37 | precedence-climbing evaluator | negation witness + partial |
| C38 | bit packing | bit-level round trip |
| C39 | symbol table folding | characterisation of resolution |
| C40 | address assignment fold | disjointness, alignment |
| C41 | relocation formulas | value or error; negation witnesses |
| C42 | byte splitting | little-endian value |
| C43 | copy loop | exact coverage |
| C44 | move sequentialisation | parallel semantics |
| C45 | list of open streams | invariant over histories of open/close/exit |
| C46 | `fgets`, `getline` loops | refinement to "prefix up to the newline" |
| C47 | `ei_jmp`/`ei_cond` tables against flag semantics | case analysis over codes, all operand values |
| C48 | two independent argument walks | equality of locations by induction on the argument list |
| C49 | `va_start`, `va_arg` | simulation of the pointer walk |
| C50 | prologue arithmetic | arithmetic, all frame sizes |
| C51 | work-list of register flow | least fixpoint = paths, termination measure |
| C52 | `li` sequence | decode and execute, all 64-bit constants |
| C53 | `pp_funargs`, `subst` | argument splitting by induction on the tokens; substitution against a grammar of replacement lists |
| C54 | `construct_initial_value`, `.p2align` | strong induction on the type: emitted bytes = image of the value; composed with C29 |
| C55 | `gen_stmt`, `gen_cond_jmp`, `make_cond` | forward simulation from a continuation semantics, with a measure so that divergence is preserved; labels counted |
| C56 | `new_ir_bop`, `constant_folding`, casts of constants | case analysis; the 64-bit calculation commutes with truncation to the width; findings |
| C57 | `remove_unused_vregs` | simulation block by block (registers that are read agree), induction on the rounds |
| C58 | `detect_from_bbs`, clearing of unreached blocks | invariant of the traversal; simulation |
| C59 | `peephole` | equality of the run of an instruction list, induction along the rewriting |
| C60 | `make_ssa` | invariant of the traversal (every visited block is renamed consistently; numbers are assigned once), simulation on live registers |
| C61 | `copy_propagation` | strictness (liveness at entry) gives that a copied register is not reassigned while the copy is live, by walking back to the entry; simulation per replacement; a register that is replaced is never read again (termination); the SSA form of C60 is strict |
| C62 | `insert_unconditional_bb`, `make_from_bb_unconditional`, `replace_phis`, `resolve_phis` | blocks get names of their own and the container is a list of names; a stuttering simulation for each of: splitting an edge, inserting the moves, clearing the phis; an invariant over the two loops; a weight that bounds the blocks still to visit |
| C63 | `optimize` with `apply_ssa` (-O) | the passes of C57–C62 and C33 in sequence; each pass's hypotheses are established by the passes before it; `resolve_phis`'s container is translated to the notation of BbClean and the runs are related block by block |
| C64 | `optimize` without `apply_ssa` | the same without the SSA passes, and without their restrictions |
| C65 | `tweak_irs`, `ei_*` of the x86-64 emitter | an instruction set (X64Isa) as specification; each emitted sequence is executed symbolically; forward simulation from IR instructions to machine instructions; legalization is a simulation on virtual registers |
| C66 | `assemble_inst` and the `asm_*` functions for x86-64 | an instruction decoder (X64Dec, from the Intel manual) as specification; encoding followed by decoding is the identity (up to reduction of immediates), by case analysis on instruction forms and arithmetic on prefix, ModRM and SIB bytes; sections by induction |
| C67 | instruction selection and encoder together | composition of C65 and C66: every emitted instruction is in the supported set of the encoder |
| C68 | `new_expr_*`, `make_cond`, `make_cast`, `make_refer`, `new_expr_incdec`, compound assignment of the front end | an evaluator for typed C expressions (CExpr, from ISO C) as specification; an evaluator for the trees the parser builds; induction over expressions with a relation on states that ignores the compiler's temporaries |
| C69 | `gen_expr`, `gen_cond_jmp` and their parts (code generation for expressions) | intermediate code with the meaning of X64Sel plus labels and jumps; induction over trees with an invariant that says which registers hold variables, which the operand may be read from and which are new; label uniqueness by counting; composed with C68 |
| C70 | `alloc_physical_registers` with `insert_load_store_spilled_irs` | an invariant over rounds relates the rewritten function to the source (each instruction is expanded to loads, itself, stores); liveness of the source, computed once, still covers the rewritten function; lock-step simulation composed with C34 |
| C71 | the loop of `alloc_physical_registers` | a measure: registers not yet spilled and operands not yet renamed |
| C72 | traverse.c `traverse_expr` and gen_wasm.c `gen_expr`, `gen_cond` and their parts (WebAssembly, expressions of integers and pointers) | WebAssembly's nesting and meaning written as a specification with a separate outcome for invalid code; a separate meaning of trees; simulation by induction over trees, with a counter for the temporaries |
| C73 | traverse.c `traverse_stmt` and gen_wasm.c `gen_stmt` and its parts (WebAssembly, statements) | a separate meaning of statements with labels as a list of pieces; the code of a switch body as a list of open segments (Wasm.StmtSegs); simulation by mutual induction over statements, for every bound on iterations |
| C74 | gen_wasm.c `allocate_local_variables`, `gen_defun` (WebAssembly, functions) | allocation as two passes over the declarations with an invariant on what is already placed; a call as: the entry state satisfies the relation C73 needs, the body returns by C73, the epilogue restores the stack pointer |
| C75 | fe_misc.c `check_func_reachability` | the meaning of C55 (continuations, goto); invariant that a statement the analysis lets complete is followed by something that may be reached; simulation between a body and the body with `return 0` |
| C76 | emit_x64.c, emit_code.c and the macros of x64.h (writing); parse_asm.c `parse_line`, `parse_inst`, `parse_expr`, parse_x64.c (reading) | printer and reader as functions on bytes; each operand's text followed by an end of operand is read back (induction over digits and names); the table of operand combinations is evaluated on the finite set of flags; composed with C67 |
| C77 | parser_expr.c `parse_precedence`, `get_rule` and the prefix and infix routines, as a function on token lists | the stratified grammar of C11 6.5 as an inductive predicate; parser = grammar in both directions, by induction on derivations (with the loop as continuation) and on the recursion bound; unambiguity of the grammar as a corollary |
| C78 | parser_type.c declarators on a heap of type objects with in-place overwritten placeholders | C11 6.7.6 as a denotation of declarator trees; by mutual induction on the tree, with the result characterised in every heap that agrees on the new objects (so that it survives the later overwriting of the placeholder) |
| C79 | parser_type.c `parse_raw_type`, fe_misc.c `check_type_combination` on token lists | the list of C11 6.7.2p2 as multisets; induction on the tokens with the counts as state, monotonicity of the check, and the finite set of accepted counts |
| C80 | wasm_linker.c from symbol tables, code and segments to the linked module and its patches | meaning of a reference (one strong definition, else the first weak, else import) over the list of all symbols; invariant of the two tables over the sequence of loaded files; layout as disjoint intervals |
| C81 | emit_elf.c, the string and symbol tables and elfobj.c/ld.c down to the bytes of the object file | sections, labels and waiting places as the assembler has them; encode/decode lemmas per record, a "part at offset" invariant for the layout, symbol tables represented as lists of rows |
| C82 | parser.c, statements: `parse_stmt`, `parse_stmts` and all they call; SAVE_LOOP_SCOPE; labels and gotos | the statements of C as an inductive family with their text (the productions of C11 6.8) and the constraints as predicates on the tree, all apart from the parser; soundness by induction on fuel with one invariant for statements and items, completeness by induction on the tree; one reading follows from both |
| C83 | fe_misc.c, inlining: `duplicate_inline_function_expr/_stmt`, `embed_inline_funcall`; `gen_inlined` | a semantics in which an inlined call is a call with locals of its own (nondeterministic where locals are not initialized), with a bound on steps that covers non-termination; copies as a relation on trees with an injective map of scopes and ranges of scopes for nested bodies; the copy made by the code is one (induction on the tree and on the order of definition), copies simulate (induction on steps) |
| C84 | fe_misc.c, calls and `op=`: `simplify_funarg_recur`, `unnest_arg`, `simplify_funcall`, `transform_assign_with` | evaluations as traces (accesses, calls) with every interleaving C allows, for the source and for the result; temporaries are written once before they are read (scoping on trees, kept by interleavings), so they can be replaced by a valuation; then what is taken out of an argument followed by what is left is an evaluation of the argument |
| C85 | xcc/main.c: `compile`, `compile_csource`, `compile_asm`, `do_compile` with the processes they start | transition system of driver, cpp, cc1, as, two bounded pipes and inherited descriptors, any process may move next; one inductive invariant (about forty clauses) for all moves, a second one for successful tools, a decreasing weight for termination, and a case analysis for freedom from deadlock; induction over the sources for the command line |
| C86 | util/archive.c: `load_archive`, `load_archive_content` | function over the bytes of the file; specification by where the bytes of the format are; induction for the insertion search, the binary search, the name table; an invariant over request sequences |
| C87 | type.c `same_type_without_qualifier`, `can_cast`, fe_misc.c `check_cast`, parser_expr.c `assign` on type trees | C11 6.2.7 compatibility and 6.5.16.1/6.5.4 as predicates; mutual induction on types and parameter lists in both directions |
| C88 | lexer.c `read_string`, `read_char`, `backslash`, `read_utf8_char`, `convert_str_to_wstr`, `skip_whitespace_or_comment` on the bytes of the text | the text is generated from elements with values (C11 6.4.4.4, 6.4.5, RFC 3629) and gaps; induction on elements, gaps and pieces |
| C89 | libsrc/math `floor`, `ceil`, `frexp`, `ldexp`, `fabs`, `copysign`, `signbit`, `finite`, `isnan`, `isinf` on 64-bit patterns | IEEE 754 values as integers in units of 2^-1074; masks as arithmetic on the fields, carries from the fraction into the exponent |
| C90 | fmemopen.c, open_memstream.c as a state machine over the buffer, the position and the answers of realloc | the bytes written so far as a list; invariants over all call sequences, 32-bit arithmetic |
| C91 | getline_chomp, getline_cat, getline_cont over the bytes of the file | text after deleting backslash-newline, split at newlines; line number = newlines consumed |
| C92 | optparse, the loop of its callers, the option tables of the six programs | grammar of command lines (`Parse`), longest name wins; both directions |
| C93 | _detect_open_flag, getenv, strdup, strndup, calloc, dirname, is*, to* | sets of letters for modes, first entry of the name, prefix of the string, listed characters |
| C94 | realloc on the allocator of C03 | contents per unit before and after, frame for all other blocks, reachability of the state after |
| C95 | mkstemps up to the call of open, over any random numbers | template = prefix, six X, suffix; letters and digits |
| C96 | show_error_line, the bytes written | every character but a tab one column wide; any tab stops |

## What is modelled

| module | code in /repo |
|--------|---------------|
| Util.Wrap, Align, Field | util.c:334-351 `wrap_value`, `is_im*`, the `ALIGN` macro; bit fields of instruction words |
| Util.Leb128 | util.c:429-555 `DataStorage`, LEB128 |
| Util.Escape | util.c:614-661 `escape_string`; parse_asm.c:703-750; lexer.c:167-211, 600-647 |
| Util.Vec, Table, Names, Path | util.c `Vector`, `join_paths`; table.c |
| Lib.Qsort, MemFuncs, Str, Strtol, Rand48, Atexit, Malloc | libsrc/stdlib, libsrc/string |
| Lib.FileOut, FileIn, Printf | libsrc/stdio: streams, `fgets`, `getline`, `vfprintf` (integers and strings), `snprintf` |
| Cpp.IfExpr, Cond | cpp/pp_parser.c:231-444; cpp/preprocessor.c:690-859 (conditional part) |
| Cpp.Macro | cpp/macro.c, cpp/pp_parser.c:156-241, cpp/preprocessor.c:134-204 (expansion of identifiers) |
| Front.LexOp, Literal | lexer.c `get_op_token`, `read_num`; parser_expr.c `literal` |
| Front.Struct, Bitfield | type.c:55-242; fe_misc.c:1066-1173; cc_misc.c:71-117, 210-245 |
| Front.Fold | fe_misc.c, parser_expr.c: conversions and folding of integer constants |
| Front.CExpr (specification), Elab, ElabOps, ElabCorrect | fe_misc.c:611-738, 780-1064, 1179-1189, 1275-1438, 1460-1675, parser_expr.c: the trees built for integer and pointer expressions |
| Backend.ExprGen, ExprGenCorrect | codegen_expr.c:21-28, 56-218, 275-335, 523-541, 568-580, 609-753, 816-841, ir.c:79-286: the code of integer and pointer expressions |
| Front.Scope | var.c, fe_misc.c, parser.c, parser_type.c: scopes and lookup |
| Front.Init | initializer.c:159-545: `flatten_initializer` |
| Front.StaticInit | cc_misc.c:121-268, emit_code.c:149-233: the data of static objects, without bit-fields |
| Backend.Cond, Switch | condition codes and their lowering on three targets; `switch` dispatch |
| Backend.StmtGen | codegen.c:304-385, 499-664, 878-931; codegen_expr.c:57-171, 308-335, 609-752; fe_misc.c:1292-1358, 1402-1459: statements and conditions over arbitrary operations |
| Backend.IrFold | ir.c:79-234, optimize.c:335-369, 394-489 (integers), codegen_expr.c:189-206 |
| Backend.Ir (specification) | a machine for intermediate code with phi functions; refinement of functions |
| Backend.Dce, Edges, Peephole | optimize.c:124-217, 490-537, 637-642; ir.c:407-459 |
| Backend.Ssa | ssa.c:15-196, 386-391 |
| Backend.CopyProp, SsaStrict | optimize.c:219-249, 542-634 |
| Backend.BbClean | optimize.c:17-119 |
| Backend.PhiMoves | ssa.c:290-415 |
| Backend.ResolvePhis | ssa.c:197-290, 365-415, 424-443 |
| Backend.Optimize | optimize.c:636-664 |
| Backend.Frame, CallConv, CopyLoop | codegen.c, codegen_expr.c, builtin.c, emit_x64.c, emit_riscv64.c |
| Backend.X64Isa (specification), X64Sel, X64Legal | arch/x64/ir_x64.c:17-79, 201-236, 250-594, 634-650, 714-918, 1046-1175 (integers); emit_code.c:306-312 |
| Backend.RegFlow, Intervals, LinearScan, AllocSim, Spill | ir.c:461-541, regalloc.c (Spill: 270-500; a register without uses counts as spilled from the start, frame slots are a map from virtual registers to values, flags of inserted loads are left out, storing of spilled parameters by the prologue is a hypothesis) |
| As.Expr | parse_asm.c:451-557, 928-953, 1079-1142 |
| As.Relax | ir_asm_x64.c:12-316, as.c:185-191 |
| As.X64Dec (specification), X64Enc, X64Code | arch/x64/asm_code.c:33-1657 (except `asm_mov_sr`), ir_asm_x64.c:104-117, 135-173, 201-215 |
| As.X64Text, X64TextRead, X64TextCode | src/cc/arch/x64/emit_x64.c:22-58, x64.h:18-206, src/cc/backend/emit_code.c:93-103; src/as/parse_asm.c:195-234, 560-698 and its expression parser, arch/x64/parse_x64.c (without directives and segment registers) |
| Front.ExprParse | src/cc/frontend/parser_expr.c:25-41, 152-204 (syntax), 208-259, 261-834: which operand belongs to which operator. Type names, literals and braced initializers/blocks are single tokens; the semantic actions are C19, C56, C68 |
| Front.Declarator | src/cc/frontend/parser_type.c:396-432, 471-661, type.c:274-328: type objects, their sharing and the overwriting of placeholders. Declaration specifiers are one token; array sizes are literals; no VLA, no qualifiers inside brackets |
| Front.Spec | src/cc/frontend/parser_type.c:188-372, fe_misc.c:109-136, type.c:261-264, 321-328; the contents of `struct {}`, `enum {}`, `typeof()` are one token |
| Wasm.Link | src/wcc/wasm_linker.c:28-57, 407-427, 608-786, 847-998, 1000-1178, 1405-1530; archive loading is the sequence of loaded members; the order of hash tables is a parameter; tags, function types and constructors are left out |
| As.Elf | src/as/emit_elf.c:16-529, as_util.c:13-41, as.c:39-44, 66-75, 199-219, parse_asm.c:99-131, 815-863, 903-930, 996-1016; src/util/elfutil.c:5-25, util.c:62-68, 256-265; src/ld/elfobj.c:11-155, ld.c:124-147, 182-241; R_RISCV_RELAX is left out; the target is a parameter |
| Front.StmtParse | src/cc/frontend/parser.c:20-73, 296-550, 603-684, 870-889; fe_misc.h:47-56 (expressions and declarations are single tokens; without `__asm`, statement expressions and the types of `return`; the first error ends the parse) |
| Front.Inline | src/cc/frontend/fe_misc.c:2085-2400 (without `switch`, labels, statement expressions, compound literals, members), parser_expr.c:652-680, backend/codegen_expr.c:763-815; locals by name only, values are integers, a scope of the caller has all its variables when it is entered |
| Front.CallArgs | src/cc/frontend/fe_misc.c:1648-1802 (without structures, compound literals), the x64 case of `make_cast` (395-414) and `transform_assign_with_bitfield` (1619-1645) for two findings; values are integers, operators and functions arbitrary, temporaries apart from the memory |
| Util.Driver, DriverInv, DriverStep, DriverRun, DriverProps, DriverMain | src/xcc/main.c:24-244,529-613 and the order in which cpp.c, cc1.c and as.c read, write and end; what the tools compute is a parameter; not modelled: option parsing, failing `fork`/`pipe`/`dup`, interrupted waits, outside signals, reuse of process numbers; SIGKILL acts at once |
| Ld.ArFile | src/util/archive.c (all), libsrc/stdlib/bsearch.c; the object reader is a parameter; the hash table is its last put; not modelled: a missing file, signs in size fields, running out of memory |
| Front.TypeCheck | src/cc/frontend/type.c:386-541, fe_misc.c:104-107,322-344, parser_expr.c:522-547; a structure type is its identity, its tag and whether it is complete; diagnostics are silent, warning or error; not modelled: const members, `auto`, the text of messages |
| Front.StrLit | src/cc/frontend/lexer.c:152-213,501-665 and the skipping of white space and comments; errors of the lexer are `none`; not modelled: the growth of the buffer, the token's position, `for_preprocess`, `__NO_WCHAR` |
| Lib.Fp, Lib.FpModf | libsrc/math/_ieee.h, floor.c, ceil.c, frexp.c, ldexp.c, fabs.c, copysign.c, signbit.c, finite.c, isnan.c, isinf.c, modf.c, round.c; the machine's subtraction is any that is exact when the difference is a number; not modelled: other floating-point operations, the WebAssembly and RISC-V variants, series (sin, exp, ...) |
| Lib.MemStream | libsrc/stdio/fmemopen.c, open_memstream.c, fseek.c with SEEK_SET; not modelled: ungetc, the end-of-file flag, SEEK_CUR and SEEK_END, mode strings |
| Util.Lines | src/util/util.c:105-153; `getline` itself is the C library's, memory is always there |
| Util.Opt | src/util/util.c:663-722, the option tables, the `-l` case of src/xcc/main.c; not modelled: the other cases, error texts, the extra word of -fuse-ld |
| Lib.Misc | libsrc/stdio/_detect_open_flag.c, libsrc/stdlib/getenv.c, calloc.c, libsrc/string/strdup.c, strndup.c, libsrc/misc/dirname.c, is*.c, to*.c; malloc is a parameter |
| Lib.Realloc | libsrc/stdlib/realloc.c with a non-null pointer; the copy is in whole units of 16 bytes |
| Lib.Mkstemp | libsrc/stdlib/mkstemps.c; not modelled: `open`, negative suffix lengths |
| Util.ErrorLine | src/util/util.c:288-299; not modelled: negative lengths, bytes of multi-byte characters |
| As.RvIsa (specification), RvAsm | riscv64_code.h, riscv64/asm_code.c |
| Ld.Symbols, Layout, Reloc | ld.c, archive.c (index and loading) |
| Wasm.Isa (specification), Gen, GenOps, GenCorrect, GenProps | wcc/traverse.c:183-193, 247-496; wcc/gen_wasm.c:74-200, 250-264, 282-549, 631-642, 670-933, 997-1101 (integers and pointers; calls of known functions without variadic or struct parameters; addresses as the linker leaves them; memory has a fixed size, what a call does is a parameter) |
| Wasm.Stmt (model and specification), StmtSegs, StmtCorrect, StmtOk, StmtSwitch, StmtProps | wcc/traverse.c:471-473, 528-589, 622-668; wcc/gen_wasm.c:1109-1504; cc/frontend/fe_misc.c:2031-2056 (without asm, goto, labels, clearing of aggregates; case labels only at the top of the body of the switch or in blocks there) |
| Wasm.Alloc, Func, FuncCorrect, FuncProps | wcc/gen_wasm.c:1506-1768 (allocation of all kinds of variables; prologue, body and epilogue of functions with integer and pointer parameters; no variadic or structure parameters in the correctness claim, no setjmp; the body is a list of C73 statements) |
| Front.Reach | cc/frontend/fe_misc.c:1801-1844, 1889-2029; ast.c:44-66 (no noreturn calls, asm, statement expressions, warnings) |

Not modelled: the statement and declaration parsers, the code made from initialisers of automatic objects (except
bit-fields), statement expressions, inlining, floating point values, the parsing of `#define` and directives inside macro calls, the AArch64
instruction encoder, the parsing of x86-64 operands, of the WebAssembly compiler all but integer expressions, the WebAssembly linker, the drivers, reading and
writing of ELF files, directories, time and processes in libsrc, inline assembly.

## Findings

Each is a theorem about the model of the code as it is (name in brackets).

libsrc
* `memchr`, `strchr`, `strrchr` miss bytes of 128 and above [Mem.memchr_high_wrong, strchr_high_wrong]; `memccpy` drops the stop byte [memccpy_wrong]; `strstr("","")` is NULL [strstr_empty_wrong]; `strncpy` does not pad [strncpy_pad_wrong]; `stpcpy` returns one too far; `strcasecmp` is case sensitive; `strtok_r` reads past the end.
* `strtol` with base 16 does not accept `0x`, `strtoul` does not skip blanks, `strtoull` rejects `-` [Strtol].
* `malloc(SIZE_MAX)` succeeds with an empty block; huge requests corrupt the heap [Malloc].
* At most 8 `atexit` handlers; handlers registered during `exit` are lost [Atexit].
* A short write duplicates bytes; a failed flush miscounts; `fread` ignores `ungetc`; read errors are undefined behaviour [FileOut, FileIn].
* `snprintf` with n = 2^32 stores nothing; several `printf` flag combinations deviate [Printf].

Preprocessor
* Conditions in skipped groups, and of `#elif` after a kept group, are evaluated and can be errors [CppCond.skipped_condition_rejected]; text after `#endif`/`#else` enters the program [endif_rest_kept].
* Circular macros expand differently depending on what was expanded before, and differently from ISO C [Macro.history_dependence, first_expansion_wrong]; the expansion of an argument reads the source behind the call [argument_reads_ahead_wrong, self_argument_wrong]; `f()` is rejected for one parameter; an empty left operand of `##` drops the right one; `#` doubles all backslashes; `__VA_OPT__` ends at the first `)` [empty_argument_rejected, empty_paste_wrong, stringize_backslash_wrong, vaOpt_wrong].
* `#if` has no unsigned arithmetic, evaluates unevaluated operands (a trap kills it), accepts division by zero [IfExpr].

Front end
* No digraphs [LexOp]; `UL` and large hexadecimal literals become `unsigned long long`, decimal literals of 2^63 and above become unsigned or saturate, character constants have type `char` [Literal].
* A union ignores the alignment of its bit-fields; a `_Bool` bit-field asserts [Struct]; full-width signed bit-fields overwrite their neighbours, the value of a bit-field assignment is not reduced, width 64 is undefined [Bitfield].
* `long + long long` is `long`; `c ? 1u : -1` is `int`; `0 - 1u` folds to -1; `INT64_MIN / -1` kills the compiler; `(x < y) == 0` is wrong on NaN [Fold].
* `++b` of a `_Bool` gives 2, as does `b <<= 1`; `&(*(int **)4096)[2]` is 4104, two dereferences are merged; `sizeof((_Bool)(i, u))` and `sizeof(1 && (i, u))` are the size of `u`; `(int *)4096 - (int *)8192` is 2^62 - 1024; `(0 ? 0u : -i) < 0` is true [Elab.boolInc_wrong, boolShift_wrong, mergedDeref_wrong, commaBool_wrong, ptrDiff_wrong, ternSign_wrong].
* `(unsigned)(i = -1) / 2` is 4294967295 and `(unsigned long)(unsigned)(i = -1)` is 18446744073709551615: constants that are values of assignments are not wrapped by casts to types of the same size; `(*(int **)4096)[2] = 5` writes to 4104; `i && (l = LONG_MIN) / (m = -1L)` stops the compiler with a division overflow [ExprGen.castConst_wrong, castWide_wrong, mergedStore_wrong, divMin_stops].
* An inner `typedef` of a known name is dropped; valid inner enumerators and enum tags are rejected; an inner `struct S;` is ignored [Scope].
* In initialisers: a nested structure that begins with a zero-width bit-field shifts the values, unnamed bit-fields take values, `.x = {1}` asserts, `.names = "a"` is rejected, `.s = sv, .s.x = 5` drops `sv`, an array of empty structures of unknown length never ends [Init]; two initialised members of a static union displace all later data [StaticInit.union_two_members_wrong].

Back end
* Inverted floating-point conditions [Cond.invert_float_wrong]; `unsigned long` labels on both sides of 2^63, far labels, untruncated labels [Switch].
* After copy propagation removes a conditional jump that is never taken, the edge stays in `from_bbs`, and `resolve_phis` puts the moves of the lost edge into the block: `int i = n, r, z = 0; do { r = i; i = i + 1; } while (z); return r;` returns n + 1 with -O [ResolvePhis.stale_edges_wrong]. A conditional jump on floating-point operands is inverted without regard to NaN when its edge is split [ResolvePhis.nan_wrong].
* A value living around a loop through a call is kept in a caller-saved register [AllocSim.loopCall_miscompiled]; RISC-V `fs8` is never saved; two exchanges at one join, or a shift of four variables, lose a value [PhiMoves.two_swaps_wrong, shift_wrong] and other sets of four phis crash the compiler [PhiMoves.null_dereference_acyclic].
* Constants are folded with bits above their width: `(unsigned)-1 / 2`, `(unsigned)-1 == 4294967295u`, `(unsigned)(short)-1 >> 28`, `(int)x == 1`, `(int)x / 2` and `-x / 2u` for constants that reach the back end or, with -O, the optimizer [IrFold.unsigned_div_wrong, unsigned_eq_wrong, widened_shr_wrong, narrowed_eq_wrong, narrowed_div_wrong, neg_flag_wrong].
* Unused volatile loads, stores to volatile locals and `asm` with an unused output are deleted at every optimization level [Dce.volatile_load_removed, volatile_store_removed, asm_output_removed].
* x86-64 division below 32 bits, which C's promotions keep out of programs: 8-bit `%` asserts, 16-bit `%` takes the 8-bit path, 8-bit `/` divides `%ax` without setting `%ah`, signed 16-bit `/` leaves `%dx` unset [X64Sel.mod8_asserts, mod16_wrong, div8_wrong, div16_wrong].
* Frames of 2 GiB; `va_start` with struct results, struct parameters, ninth floating-point parameter on RISC-V [Frame, CallConv].

WebAssembly
* `q++` on a local pointer to 64..127 bytes moves backwards: the step is written unsigned and read signed [WasmGen.wasm_ptr_inc_backwards, wasm_imm_wrong]; `++b` of a `char` in memory that holds 127 is 128, of a `_Bool` 2 [wasm_char_preinc_wide, wasm_bool_preinc_two]; `k <<= 1` of an `unsigned char` in a local leaves 400 in it [wasm_narrow_shift_wide].
* wcc `switch` on a 64-bit value with a table looks at the lower half only: 4294967297 takes `case 1` [WasmGen.wasm_switch64_wraps]; `case 0xFFFFFFFFu` gives malformed code [wasm_switch_unsigned_label_malformed].
* `*(p = r) = 1;` and `(*(p = r))++;` are compiled to invalid WebAssembly: the left side is rewritten as if its value were not used [wasm_assign_through_assignment_invalid, wasm_inc_through_assignment_invalid].
* wcc, end of a function with a value: `if (1) return 1; else n = 0;` traps [WasmGen.wasm_const_if_traps]; `if (n) return 1; else for (;;) ;`, `if (0) return 1;` are invalid and `if (n) return 1;` malformed [wasm_if_loop_invalid, wasm_if_zero_invalid, wasm_if_without_else_malformed]; a parameter whose address is taken after a structure parameter is read from the wrong local [wasm_ref_param_after_struct_wrong]; objects aligned to 16 are not aligned in the frame [wasm_frame_align16_wrong].
* `switch (x) { default: return 1; while (x) { case 1: …; break; } }` as the end of `main` (and `goto` into a block after a `return`) is taken for unreachable: no `return 0` is added, the result is undefined, and wcc asserts or traps [Reach.duff_reaches_end, goto_reaches_end].

Assembler and linker
* `5-3` is 8, `8/2` is 10, `a+4-b` is `a-b` [AsmExpr]; relocation of `jcc` to another file misplaced, `.globl` of an undefined label resolved to 0, jumps between sections not relocated [Relax].
* x86-64: `mov 0x1234, %eax` and `mov %eax, 0x1234`, which the compiler emits for constant addresses, access address 0 [X64Enc.abs_wrong, X64Code.abs_load_wrong], with %r8-%r15 also another register [abs_reg_wrong]; `subq $16, 8(%rax)` adds [subq_wrong]; `lea`, `add`, `inc` ... with base %r12, or %r13 without offset, `jmp *8(%rsp)` are encoded as something else [lea_r12_wrong, lea_r13_wrong, mem_r12_wrong, jmp_rsp_wrong]; a stray byte after `leaq (%rsp,%rax), %rcx` [lea_rsp_index_wrong]; indexed and %rip-relative loads and indexed `add` of 32 bits use 64 [load_index_wrong, load_rip_wrong, add_index_wrong]; 8-bit `neg` and `not` use 32 [neg8_wrong]; %ah becomes %spl [ah_wrong, ah_r8_wrong]; offsets and 64-bit immediates are cut silently [offset_wrong, movq_imm_wrong].
* x86-64 text: `lea tbl-8(%rip), %rax`, in the form `label_indirect` has for negative offsets (the compiler's own offsets are 0), is refused, a store of a constant to address -1 is written as one to 4294967295 and refused, to 0x100001234 as one to 0x1234 [X64Text.rip_neg_wrong, store_neg_wrong, store_high_wrong]; `mov %al, %ebx`, `lea 8(%rbp), %eax`, `mov %eax`, `mov $5, (%rax)` and what follows a label on its line are dropped without a message [dropped_wrong, label_rest_wrong]; `jmp foo bar` is `jmp foo`, `4-1(%rax)` is `5(%rax)` [jmp_rest_wrong, offset_expr_wrong].
* expressions: `sizeof (T){..}` is refused [ExprParse.sizeof_complit_wrong]; a constant expression with `?:` at the top (`case`, enumerator, bit-field width, designator index) is refused [const_cond_wrong]; `sizeof(int)[p]` and `1 ? a : b = c`, no expressions of C11, are accepted [sizeof_index_wrong, asg_cond_wrong]
* declarators: `int ((*x))[3]` declares a pointer to `int`, `int ((f))(void)` an `int`: the inner placeholder is copied from the outer one before that is filled [Declarator.double_paren_wrong, double_paren_fn_wrong]; the type name `int ()` is read as `int`, `int (int)` is refused [abstract_fn_wrong]
* specifiers: `const double`/`const float` are not const [Spec.const_double_wrong]; `float double`, `char int`, `unsigned signed`, `int void`, `struct S int`, `static x`, `auto register` are accepted, `const const` is refused [extra_wrong, mixed_wrong, lenient_wrong]
* wasm linker: a `static` function or variable with the name of a global one of another file is replaced by it [WLink.static_wrong]; negative addends (`int *p = a - 1;`) are misread [addend_negative_wrong]; alignments are attached to the wrong variables when there are `extern` ones [align_wrong]; messages for archive members are printed but not counted (wasm_linker.c:661)
* assembler: a name declared with `.globl`, `.weak` or `.type` and not defined in the file is written as defined at the start of the current section, so the linker takes it for the definition [Elf.globl_undefined_wrong]; a label in a section with nothing in it fails an assertion [empty_section_fails]
* statements: the body of `if`, `else`, `while`, `for` and `switch` may be missing before a `}`: `while (1) }` is accepted [StmtParse.missing_body_accepted]; case labels are compared with the earlier ones after conversion of those only, and the value of the switch is not promoted: with `char c`, `case 0: case 256:` gives label 0 twice, and `case 256: case 0:` is refused [converted_duplicate_accepted, different_labels_refused].
* library: `mkstemps` refuses a template without six X after it replaced some of them (C95, `refused_but_changed`; mkstemps.c:28);
* messages: the mark under an error may run past the end of the line (C96, `mark_may_overrun`; util.c:295-296; no caller is shown to do so);
* library: `strndup` copies `size` bytes even behind the end of the string (C93, `strndup_reads_beyond`; strndup.c:7);
* library: `calloc` multiplies without a check, so a wrapped product gives a block that is too small (C93, `calloc_too_small`; calloc.c:5);
* library: `dirname("/a")` is empty and `dirname("a/b/")` is `a/b` (C93, `dirname_root`, `dirname_slash`; dirname.c:5-8);
* driver: `xcc -l foo` in two words copies the bytes between a string literal and the argument, undefined behaviour (C92, `lib_separate_undefined`; main.c:448);
* driver: the code that reads the source from standard input for `-` is never reached (C92, `dash_is_operand`; main.c:460-464);
* wcc: `-g` and `-O` require an argument and swallow the next word, so `wcc -g a.c` has no source (C92, `wcc_debug_takes_source`; wcc.c kOptions);
* source lines: two backslashes at the end of a line before an empty line both vanish and the line after the empty one is joined too (C91, `backslash_before_empty`; util.c:143 tests the joined line);
* stdio: a memory stream that reaches 2^30 bytes cuts its buffer to 16 bytes and writes behind it (C90, `gigabyte_corrupts`; fmemopen.c:13-15);
* stdio: `fseek` on memory streams accepts any position: at -1 the next write, behind the end the next read is outside the buffer (C90, `seek_corrupts`, `seek_reads_beyond`; fmemopen.c:27,43,65);
* stdio: closing a memory stream that was only read writes a zero into the caller's buffer (C90, `close_changes_input`; fmemopen.c:83); an empty `open_memstream` leaves a null pointer (`empty_memstream`); without memory, bytes are lost in silence (`lost_without_memory`);
* math: `floor`, `ceil` and `frexp` are wrong for every subnormal number, which `floor` and `ceil` return unchanged (C89, `floor_subnormal`, `ceil_subnormal`, `frexp_subnormal`; floor.c:18, ceil.c:18, frexp.c:12);
* math: `round` adds 0.5 in floating point, so the number before 0.5 is rounded to 1 (C89, `round_below_half`; round.c:7);
* math: `ldexp(1.0, -1023)` is 0, the subnormal result is lost (C89, `ldexp_underflow`; ldexp.c:15-18); a signaling NaN is an infinity to `isinf` and no NaN to `isnan` (`signaling_nan_infinite`; isinf.c:11);
* types: `int (**p)(int) = q` with `int (**q)()` is valid C and warned about (C87, `unprototyped_inside_warned`; type.c:421);
* strings: a hexadecimal escape ends after two digits, so `"\x041"` has two characters, and `\?` is rejected (C88, `hex_escape_cut`, `question_mark_rejected`; lexer.c:190,207);
* strings: in wide strings escapes are replaced twice (`L"\\n"` is a newline), numeric escapes are truncated to a byte (`L"\x3042"` is 0x42) and the string ends at its first `\0` (C88, `wide_escape_twice`, `wide_hex_cut`, `wide_zero_cuts`; lexer.c:189,576-598,631);
* strings: when a line ends with the quote that opens a character constant, the byte behind the line's terminator is read (C88, `quote_at_end_reads_beyond`; lexer.c:544,563-564);
* types: only `const` at the first pointer level is checked in implicit conversions: `const char **p = q` with `char **q`, `int (*p)[3] = q` with `const int (*q)[3]`, and dropping `volatile` pass silently (C87, `inner_const_unchecked`, `array_const_dropped`, `volatile_dropped`; type.c:392,496,503);
* types: pointers to different enumerations, function and `void` pointers, an incomplete structure and a hidden one of its tag, and unprototyped functions with `float` parameters are interchangeable (C87, `enums_mixed`, `function_to_void`, `hidden_tag_accepted`, `unprototyped_accepted`);
* types: `_Bool b = p` with a pointer `p` is valid C and warned about (C87, `bool_from_pointer_warned`; type.c:459-466);
* linker: when two members of an archive define a name, the last entry of the symbol table counts, not the first (C86, `later_member_taken`; util/archive.c:134);
* linker: the first member of an archive is taken for the symbol table whatever its name, an archive without one can be accepted as empty (C86, `no_table_accepted`; util/archive.c:98-105);
* driver: if the assembler cannot be started (or dies early) and the assembly text does not fit into a pipe, `xcc` can hang for ever: cc1 has inherited the read end of its own output pipe and the driver waits for it (C85, `hangs_without_assembler`; xcc/main.c:62-86,113-141,205-210);
* driver: `as_pid` is set to -1 before `wait_process(as_pid)`, the last wait is for any child (xcc/main.c:208-209); harmless for the exit status, as C85 shows;
* driver: when the assembler rejects its input, `-c` leaves an object file of an earlier run in place; a failing `-S` leaves the text written so far (C85, `stale_object_left`, `partial_text_left`);
* conversions: on x64 a floating value converted implicitly (assignment, argument, return) to an unsigned 64-bit type is computed twice, `unsigned long u = g();` calls `g` twice (C84, `implicit_u64_conversion_calls_twice`; fe_misc.c:395-414);
* bit-fields: `s.a += f()` stores the storage unit as it was before the call, changes `f` makes to other fields of the unit are lost (C84, `bitfield_opassign_undoes_call`; fe_misc.c:1619-1645);
* RISC-V: compressed `sw`, `add rd,rd,zero`, `srliw` 32..63, truncated offsets, `li sp` [RvAsm].
* An untruthful archive index makes the linker loop; `.bss` padding is not counted, large alignments cannot be mapped, unknown sections are dropped; distances are not checked, `R_RISCV_JAL` clears the link register, section symbols are looked up by symbol number [LdSym, LdLayout, Reloc].
