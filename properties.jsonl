{"id": "C01", "title": "qsort sorts", "statement": "After qsort(base,nmemb,size,cmp) returns, the array is a permutation of its old contents and is ordered by cmp, every element access stays inside the array, and the call terminates, for every comparison function that is a total preorder.", "quantifier": "every array length and contents, every total-preorder comparison function", "why_tests_cant": "The claim ranges over all arrays and comparison functions; a partition bug can show only for particular duplicate/pivot patterns.", "anchors": ["libsrc/stdlib/qsort.c: qsort"]}
{"id": "C02", "title": "bsearch finds exactly the present keys", "statement": "On a sorted array bsearch returns a pointer to an element comparing equal to the key if one exists and NULL otherwise, only dereferences elements inside the array and terminates.", "quantifier": "every sorted array, every key, every monotone comparison", "why_tests_cant": "Off-by-one errors in binary search appear only at particular lengths/positions; no finite set of arrays settles it.", "anchors": ["libsrc/stdlib/bsearch.c: bsearch"]}
{"id": "C03", "title": "malloc/free never hand out overlapping memory", "statement": "For every history of malloc and free calls (free only of live pointers), each returned block is at least as large as requested, 16-byte aligned, lies inside memory obtained from the system, and is disjoint from every other live block; memory released by free becomes reusable and adjacent free blocks are merged.", "quantifier": "every finite history of malloc/free calls and every sequence of system-break results", "why_tests_cant": "Allocator corruption needs long histories; the set of histories is infinite.", "anchors": ["libsrc/stdlib/malloc.c: malloc, free, morecore"]}
{"id": "C04", "title": "memmove copies correctly for overlapping ranges", "statement": "memmove(dst,src,n) leaves in dst[0..n) the bytes that were in src[0..n) before the call, whatever the overlap, and modifies nothing else; memcpy does so for non-overlapping ranges; memset/memcmp match their definition.", "quantifier": "every memory contents, every pair of addresses and every n", "why_tests_cant": "Overlap direction bugs depend on the distance between ranges; all distances cannot be tested.", "anchors": ["libsrc/string/memmove.c", "libsrc/string/memcpy.c", "libsrc/string/memset.c", "libsrc/string/memcmp.c"]}
{"id": "C05", "title": "C string functions meet the C standard", "statement": "strlen, strcmp, strncmp, strcpy, strcat, strncat, strchr, strrchr, strspn, strcspn, strpbrk, strstr, strncpy, memchr, stpcpy return the value ISO C/POSIX specifies and never touch bytes past the terminators.", "quantifier": "every NUL-terminated string (all lengths, all byte values)", "why_tests_cant": "Each must hold for all strings including bytes >= 0x80 and empty strings.", "anchors": ["libsrc/string/*.c"]}
{"id": "C06", "title": "strtol family value, clamp and end pointer", "statement": "strtol/strtoll/strtoul/strtoull return the value of the longest digit prefix in the given base, clamped to the range of the type, and set endptr to the first unconverted character.", "quantifier": "every input string and every base 2..36", "why_tests_cant": "Overflow detection must be right for every digit string length; only a proof covers all.", "anchors": ["libsrc/stdlib/_strtoull_sub.c", "libsrc/stdlib/strtol.c", "libsrc/stdlib/strtoul.c", "libsrc/stdlib/strtoll.c", "libsrc/stdlib/strtoull.c"]}
{"id": "C07", "title": "Buffered output delivers every byte once and in order", "statement": "For every sequence of fwrite/fputc/fflush calls on a stream, the bytes passed to the system followed by the bytes still buffered are exactly the bytes accepted so far, in order; the buffer never overflows.", "quantifier": "every sequence of output calls, every data size, every outcome of the underlying write", "why_tests_cant": "Loss or duplication depends on buffer fill level at each call and on write outcomes; histories are unbounded.", "anchors": ["libsrc/stdio/_file.c: _fwrite, _fflush", "libsrc/stdio/fwrite.c", "libsrc/stdio/fputc.c"]}
{"id": "C08", "title": "Buffered input delivers file bytes in order", "statement": "For every sequence of fread/fgetc/ungetc calls, the concatenation of delivered bytes is a prefix of the file contents (with pushed back bytes re-delivered first).", "quantifier": "every sequence of input calls and every chunking of the underlying read", "why_tests_cant": "Depends on buffer positions across arbitrary histories.", "anchors": ["libsrc/stdio/_file.c: _fread", "libsrc/stdio/fread.c", "libsrc/stdio/fgetc.c", "libsrc/stdio/ungetc.c"]}
{"id": "C09", "title": "snprintf never writes outside its buffer", "statement": "snprintf/vsnprintf(buf,n,...) writes only inside buf[0..n), NUL-terminates whenever n>0, stores a prefix of the full output, and returns the full output length.", "quantifier": "every n and every sequence of output pieces produced by the formatter", "why_tests_cant": "Buffer-boundary conditions need every n against every output length.", "anchors": ["libsrc/stdio/vsnprintf.c", "libsrc/stdio/_file.c: _memwrite"]}
{"id": "C10", "title": "printf integer conversions print the number", "statement": "%d/%u/%x conversions print the digits of the argument so that reading them back in the same base yields the argument; the internal digit buffer never overflows; the return value of vfprintf is the number of characters produced.", "quantifier": "every integer argument, every width/precision and every format string", "why_tests_cant": "All 2^64 arguments times all formats.", "anchors": ["libsrc/stdio/vfprintf.c: vfprintf, snprintullong"]}
{"id": "C11", "title": "rand48 generator follows the 48-bit linear congruential sequence", "statement": "nrand48/lrand48 produce bits 17..47 of x_{n+1} = (0x5DEECE66D x_n + 0xB) mod 2^48 and keep the state in the caller's three 16-bit words.", "quantifier": "every 48-bit state and every number of calls", "why_tests_cant": "2^48 states; carry propagation between 16-bit words must be exact for all.", "anchors": ["libsrc/stdlib/nrand48.c", "libsrc/stdlib/lrand48.c"]}
{"id": "C12", "title": "exit runs registered handlers in reverse order exactly once", "statement": "exit() calls every successfully registered atexit handler exactly once, last registered first, and registration fails cleanly when the table is full.", "quantifier": "every sequence of registrations", "why_tests_cant": "Order/overflow over arbitrary histories.", "anchors": ["libsrc/stdlib/exit.c", "libsrc/stdlib/atexit.c", "libsrc/stdlib/__cxa_atexit.c"]}
{"id": "C13", "title": "Symbol table is a finite map", "statement": "For every history of put/get/try_get/delete on a table, lookups return the value most recently put for that key and not deleted since; iteration enumerates exactly the live entries once each; growth never loses entries; probing always terminates.", "quantifier": "every history of table operations over arbitrary keys/hash values", "why_tests_cant": "Collisions + tombstones + rehash interplay only show on long adversarial histories.", "anchors": ["src/util/table.c: table_put, table_get, table_try_get, table_delete, table_iterate, adjust_capacity"]}
{"id": "C14", "title": "Identifier interning is injective", "statement": "alloc_name returns the same object for two texts iff the texts are equal, for every history of internings.", "quantifier": "every history of interned byte strings", "why_tests_cant": "Depends on hash collisions over arbitrary histories.", "anchors": ["src/util/table.c: alloc_name, find_name_table, name_table_put"]}
{"id": "C15", "title": "Vector operations behave like a list", "statement": "vec_push/vec_pop/vec_insert/vec_remove_at/vec_contains on a vector match the same operations on a mathematical list for every history.", "quantifier": "every history of vector operations", "why_tests_cant": "Capacity growth and shifting must be right at every size.", "anchors": ["src/util/util.c: vec_push, vec_pop, vec_insert, vec_remove_at, vec_contains"]}
{"id": "C16", "title": "LEB128 encodings round-trip", "statement": "Signed and unsigned LEB128 and the padded 5-byte form written by the tool chain decode (by the standard decoding rule) to exactly the encoded value, and consume exactly the written bytes.", "quantifier": "every 64-bit (respectively 32-bit) value", "why_tests_cant": "2^64 values; sign-extension boundary cases at each length.", "anchors": ["src/util/util.c: data_leb128, data_uleb128, data_varuint32"]}
{"id": "C17", "title": "String literal bytes survive the assembler text", "statement": "The bytes of a string constant, escaped by the compiler into .ascii/.string and unescaped by the assembler, are unchanged.", "quantifier": "every byte string", "why_tests_cant": "256^n strings; interactions between an escape and the following character (digit after \\0 or \\x).", "anchors": ["src/util/util.c: escape, escape_string", "src/as/parse_asm.c: unescape_string, unescape_char"]}
{"id": "C18", "title": "Integer constants are wrapped to the width of their type", "statement": "wrap_value(v,size,unsigned) is congruent to v modulo 2^(8*size), lies in the range of the target type and is idempotent.", "quantifier": "every 64-bit value, every size in {1,2,4,8}, both signednesses", "why_tests_cant": "All 2^64 values.", "anchors": ["src/util/util.c: wrap_value"]}
{"id": "C19", "title": "Path joining normalises correctly", "statement": "join_paths resolves . and .. like walking the directory tree component by component and never escapes above the root.", "quantifier": "every list of path strings", "why_tests_cant": "Unbounded component sequences.", "anchors": ["src/util/util.c: join_paths, is_fullpath"]}
{"id": "C20", "title": "Conditional inclusion selects exactly the right groups", "statement": "For every nesting of #if/#ifdef/#ifndef/#elif/#else/#endif the text kept is that of, in each if-section that is itself kept, the first group whose condition is true (or the #else group), and nothing else; unbalanced directives are rejected.", "quantifier": "every well- or ill-nested sequence of directives and text lines", "why_tests_cant": "Unbounded nesting and group counts.", "anchors": ["src/cpp/preprocessor.c: process_directive, handle_ifdef, handle_if"]}
{"id": "C21", "title": "#if expressions are parsed with C precedence", "statement": "Evaluating the token sequence of any constant expression gives the value obtained by evaluating its syntax tree in 64-bit arithmetic, for every expression tree printed with the parentheses C's grammar requires.", "quantifier": "every expression tree (unbounded depth)", "why_tests_cant": "Operator-precedence bugs hide in combinations; trees are unbounded.", "anchors": ["src/cpp/pp_parser.c: parse_precedence, binary, unary, ternary, kRules"]}
{"id": "C22", "title": "Macro expansion terminates and does not depend on history", "statement": "Expanding a line terminates for every set of macro definitions, and the expansion of a line depends only on the definitions, not on lines expanded earlier.", "quantifier": "every macro table and every input history", "why_tests_cant": "Self-referential macro systems are unbounded; history dependence needs pairs of histories.", "anchors": ["src/cpp/macro.c: macro_expand, subst, hsadd"]}
{"id": "C23", "title": "Operators are lexed by maximal munch", "statement": "At each position the lexer returns the longest operator that is a prefix of the remaining text.", "quantifier": "every input text", "why_tests_cant": "All strings over operator characters.", "anchors": ["src/cc/frontend/lexer.c: get_op_token"]}
{"id": "C24", "title": "Integer literals get the value and type ISO C prescribes", "statement": "A decimal/octal/hex literal with suffix denotes its mathematical value and has the first type in the C list that can represent it.", "quantifier": "every literal value below 2^64, each base and suffix", "why_tests_cant": "2^64 values with boundary behaviours at each width.", "anchors": ["src/cc/frontend/parser_expr.c: literal", "src/cc/frontend/lexer.c: read_num"]}
{"id": "C25", "title": "Struct layout", "statement": "In every struct, members are placed at offsets aligned for their type, in declaration order, without overlap, inside the struct; the struct's alignment is divisible by each member's and its size is a multiple of it, and no smaller layout with those rules exists.", "quantifier": "every member list", "why_tests_cant": "Unbounded member lists.", "anchors": ["src/cc/frontend/type.c: calc_struct_size"]}
{"id": "C26", "title": "Bit-field layout and access", "statement": "Bit-fields occupy disjoint bit ranges inside their storage unit; writing one and reading it back yields the value reduced to its width, and leaves every other field of the unit unchanged.", "quantifier": "every bit-field declaration list, every stored value", "why_tests_cant": "Mask/shift mistakes only show for particular positions, widths, values.", "anchors": ["src/cc/frontend/type.c: calc_bitfield_size", "src/cc/frontend/fe_misc.c: extract_bitfield_value, assign_bitfield_member"]}
{"id": "C27", "title": "Usual arithmetic conversions", "statement": "The common type chosen for a binary arithmetic operator is the one required by ISO C for every pair of arithmetic types.", "quantifier": "every pair of arithmetic types", "why_tests_cant": "A table-level claim, but also consumed by every expression; must agree in folded and unfolded code.", "anchors": ["src/cc/frontend/fe_misc.c: cast_numbers, new_expr_addsub, choose_ternary_result_type"]}
{"id": "C28", "title": "Constant folding agrees with run-time evaluation", "statement": "An arithmetic, bitwise, shift or comparison expression on constants is folded to the value that executing the operation on the operands converted to the common type would give.", "quantifier": "every pair of constant operands of every integer types and every operator", "why_tests_cant": "2^128 operand pairs per operator.", "anchors": ["src/cc/frontend/fe_misc.c: new_expr_num_bop, new_expr_addsub, new_expr_cmp", "src/cc/frontend/parser_expr.c: binary, unary", "src/cc/backend/ir.c: new_ir_bop, new_ir_unary"]}
{"id": "C29", "title": "Initializers fill sub-objects in order", "statement": "A flat (brace-elided) initializer list for any nested array/struct type assigns the k-th expression to the k-th scalar leaf in declaration order, leaves the rest zero, and reports excess elements.", "quantifier": "every type tree and every list length", "why_tests_cant": "Unbounded nesting.", "anchors": ["src/cc/frontend/initializer.c: find_next_indices, store_to_current_position, flatten_initializer_multi"]}
{"id": "C30", "title": "Name lookup finds the innermost binding", "statement": "An identifier use refers to the declaration in the innermost enclosing scope that declares it.", "quantifier": "every scope chain and declaration history", "why_tests_cant": "Unbounded nesting.", "anchors": ["src/cc/frontend/var.c: scope_find, scope_add, find_typedef"]}
{"id": "C31", "title": "switch dispatch", "statement": "Executing a switch jumps to the case whose label equals the controlling value, else to default, else past the switch, whatever mix of compare chains, binary search and jump tables is generated.", "quantifier": "every set of case labels and every controlling value", "why_tests_cant": "All label sets times all 2^64 values.", "anchors": ["src/cc/backend/codegen.c: gen_switch_cond, gen_switch_cond_recur, gen_switch_cond_table_jump, compare_cases"]}
{"id": "C32", "title": "Condition inversion and operand swap are sound", "statement": "Inverting a branch condition negates the comparison; swapping operands with the swapped condition preserves it, for signed and unsigned integers.", "quantifier": "every condition code and all operand values", "why_tests_cant": "All operand values.", "anchors": ["src/cc/backend/ir.c: invert_cond, swap_cond"]}
{"id": "C33", "title": "Block clean-up preserves control flow", "statement": "Removing empty/unreachable basic blocks and redundant jumps never changes the sequence of executed instructions of any run.", "quantifier": "every control-flow graph and every execution", "why_tests_cant": "Unbounded graphs and executions.", "anchors": ["src/cc/backend/optimize.c: remove_unnecessary_bb, replace_jmp_destination"]}
{"id": "C34", "title": "Register allocation never assigns one register to two simultaneously live values", "statement": "After allocation two values of the same class whose live intervals overlap occupy different registers or stack slots, and no value is placed in a register that is clobbered during its interval.", "quantifier": "every set of live intervals and every register count", "why_tests_cant": "Unbounded interval sets.", "anchors": ["src/cc/backend/regalloc.c: linear_scan_register_allocation, expire_old_intervals, split_at_interval"]}
{"id": "C35", "title": "Stack slots do not overlap", "statement": "Each memory-resident local variable gets an aligned slot inside the frame, disjoint from every other.", "quantifier": "every list of local variables", "why_tests_cant": "Unbounded lists.", "anchors": ["src/cc/backend/codegen.c: alloc_stack_variables_onto_stack_frame"]}
{"id": "C36", "title": "Branch relaxation terminates with consistent addresses", "statement": "The assembler's long/short branch selection always terminates, and afterwards every branch left short reaches its target and all label addresses equal the sum of the sizes emitted before them.", "quantifier": "every instruction/label sequence", "why_tests_cant": "Cascading growth over unbounded programs.", "anchors": ["src/as/arch/x64/ir_asm_x64.c: calc_label_address, resolve_relative_address", "src/as/as.c"]}
{"id": "C37", "title": "Assembler constant expressions", "statement": "An integer constant expression in a data directive is evaluated by ordinary arithmetic with * and / binding tighter than + and -.", "quantifier": "every constant expression", "why_tests_cant": "Unbounded expressions.", "anchors": ["src/as/parse_asm.c: parse_add, parse_mul, unary"]}
{"id": "C38", "title": "RISC-V instructions are encoded faithfully", "statement": "The bytes the RISC-V assembler emits for an instruction, compressed or not, decode by the ISA manual's formats to instructions whose execution has exactly the effect the source instruction asks for, and operands that do not fit any encoding are rejected.", "quantifier": "every supported instruction, register choice and immediate", "why_tests_cant": "Every immediate times every register times every format.", "anchors": ["src/as/arch/riscv64/asm_code.c", "src/as/arch/riscv64/riscv64_code.h"]}
{"id": "C39", "title": "Linker symbol resolution", "statement": "A link succeeds only if every referenced symbol has exactly one strong definition or resolves to the first weak/common one, and every reference gets the address of that definition; archive members are pulled in exactly while they satisfy undefined symbols, and the search terminates.", "quantifier": "every set of object files and archives", "why_tests_cant": "Unbounded input sets and orders.", "anchors": ["src/ld/ld.c: resolve_symbols, resolve_symbols_archive, add_elfobj_symbols"]}
{"id": "C40", "title": "Linker section layout", "statement": "Input sections are placed in order at aligned, pairwise disjoint addresses within their output segment, and file offsets agree with addresses.", "quantifier": "every list of input sections", "why_tests_cant": "Unbounded lists, arbitrary sizes and alignments.", "anchors": ["src/ld/ld.c: ld_calc_address, output_exe"]}
{"id": "C41", "title": "Relocations reach their symbols", "statement": "After linking, every relocated field makes the machine compute or reach the address of the symbol plus addend, instructions keep everything but the field, and all other bytes are unchanged.", "quantifier": "every object, every list of relocations with disjoint fields, every symbol address", "why_tests_cant": "Every distance, every field of every format, any number of relocations.", "anchors": ["src/ld/ld.c", "src/as/emit_elf.c"]}
{"id": "C42", "title": "Data directives emit little-endian bytes", "statement": "`.byte/.short/.long/.quad n` emit exactly 1/2/4/8 bytes whose little-endian value is n modulo 2^bits.", "quantifier": "every 64-bit n", "why_tests_cant": "All values.", "anchors": ["src/as/parse_asm.c: handle_directive"]}
{"id": "C43", "title": "Struct copies and clears cover exactly the object", "statement": "The generated copy/clear loop touches exactly the bytes of the object, each once.", "quantifier": "every object size and alignment", "why_tests_cant": "Unbounded sizes.", "anchors": ["src/cc/backend/codegen.c: gen_memcpy, gen_clear, get_elem_vtype"]}
{"id": "C44", "title": "Parallel copies are sequentialised correctly", "statement": "Replacing phi functions by moves gives every destination the value its source had before the moves, including cycles and swaps.", "quantifier": "every set of parallel moves", "why_tests_cant": "Unbounded permutations.", "anchors": ["src/cc/backend/ssa.c: extract_cyclic_dependency, resolve_phis"]}
{"id": "C45", "title": "Every stream still open at exit is flushed", "statement": "After any history of fopen/fclose, the table the exit destructor flushes holds exactly the streams opened and not yet closed, each once.", "quantifier": "every history of opening and closing streams in any order", "why_tests_cant": "The swap-with-last removal must be right for every position and history.", "anchors": ["libsrc/stdio/_fileman.c: _add_opened_file, _remove_opened_file, flush_opened_files"]}
{"id": "C46", "title": "fgets and getline return the next line", "statement": "fgets(s,n,fp) stores the next line cut after n-1 bytes plus a NUL inside s[0..n) and leaves the stream right behind it; getline returns exactly the next line whatever its length, always keeps room for the NUL and never stores outside its block.", "quantifier": "every file content, every buffer size, every line length", "why_tests_cant": "Line lengths and buffer capacities are unbounded and interact with stream buffering.", "anchors": ["libsrc/stdio/fgets.c", "libsrc/stdio/getline.c"]}
{"id": "C47", "title": "Conditional branches are lowered faithfully on every target", "statement": "The machine branch (or set) emitted for a comparison is taken exactly when the comparison holds of the operand values, for signed, unsigned and floating operands including NaN.", "quantifier": "every condition code and all operand values of every width on x86-64, AArch64 and RISC-V", "why_tests_cant": "All operand values, including overflow and NaN cases.", "anchors": ["src/cc/arch/x64/ir_x64.c: ei_jmp, ei_cond, cmp_vregs", "src/cc/arch/aarch64/ir_aarch64.c: ei_jmp, ei_cond, cmp_vregs", "src/cc/arch/riscv64/ir_riscv64.c: ei_jmp, ei_cond"]}
{"id": "C48", "title": "Caller and callee agree on where each argument is", "statement": "For every function signature and every call of it, the place (integer register, floating point register, stack offset) where the caller puts an argument is the place where the callee looks for the corresponding parameter; arguments passed in memory do not overlap and stay inside the area reserved for the call.", "quantifier": "all lists of parameter types of any length, struct and non-struct results, named and variable arguments, all targets' register counts", "why_tests_cant": "The classification is computed three times (caller forward, caller backward, callee) over unbounded argument lists mixing register classes; tests cover a few signatures only.", "anchors": ["src/cc/backend/codegen_expr.c:gen_funcall", "src/cc/backend/codegen.c:alloc_variable_registers", "src/cc/backend/codegen.c:enumerate_register_params", "src/cc/backend/codegen.c:alloc_stack_variables_onto_stack_frame"]}
{"id": "C49", "title": "va_arg reads the arguments that were passed", "statement": "In a variadic function, successive va_arg with the right types yield exactly the variable arguments of the call, in order.", "quantifier": "all numbers and types of named and variable arguments", "why_tests_cant": "The number of register/stack combinations is unbounded.", "anchors": ["src/cc/builtin.c:gen_builtin_va_start", "include/stdarg.h:__builtin_va_arg", "src/cc/arch/x64/emit_x64.c:move_params_to_assigned", "src/cc/arch/riscv64/emit_riscv64.c:put_vaarg_params"]}
{"id": "C50", "title": "Stack alignment and separation of the areas of a frame", "statement": "At every call the stack pointer is a multiple of 16; the outgoing argument area, the local variables, the saved registers and the incoming arguments are disjoint.", "quantifier": "all frame sizes, outgoing area sizes and numbers of saved registers", "why_tests_cant": "Depends on the residues of sizes that vary with every function.", "anchors": ["src/cc/arch/x64/emit_x64.c:emit_defun_body", "src/cc/arch/riscv64/emit_riscv64.c:emit_defun_body", "src/cc/arch/x64/ir_x64.c:calculate_func_param_bottom"]}
{"id": "C51", "title": "Register flow analysis computes exact liveness", "statement": "The analysis terminates, and the registers recorded at the start (end) of a basic block are exactly those for which some path of the control flow graph from there reads the register before writing it.", "quantifier": "every control flow graph, including irreducible ones, and every instruction sequence", "why_tests_cant": "The number of control flow graphs and register sets is unbounded.", "anchors": ["src/cc/backend/ir.c:analyze_reg_flow", "src/cc/backend/ir.c:propagate_out_regs", "src/cc/backend/ir.c:insert_vreg_into_vec"]}
{"id": "C52", "title": "li loads every 64-bit constant", "statement": "Executing the instruction sequence emitted for 'li rd, imm' leaves exactly imm in rd and changes no other register, for every 64-bit constant.", "quantifier": "every 64-bit constant and every destination register", "why_tests_cant": "2^64 constants; the sequence is chosen by a recursive decomposition with rounding.", "anchors": ["src/as/arch/riscv64/asm_code.c"]}
{"id": "C53", "title": "Macro arguments are split and substituted as ISO C says", "statement": "In a call of a function-like macro the arguments are the token sequences between commas outside inner parentheses; each parameter of the replacement list is replaced by its argument completely expanded, # makes a string of the argument's spelling, and ## joins the last token on its left and the first on its right without expanding them.", "quantifier": "every macro definition, every argument list and nesting of parentheses, every replacement list", "why_tests_cant": "Replacement lists, argument lists and the nesting of parentheses are unbounded.", "anchors": ["src/cpp/pp_parser.c: pp_funargs", "src/cpp/macro.c: subst, glue, stringize, macro_expand"]}
{"id": "C54", "title": "Static objects start with their initial value", "statement": "For every static or global object of any type built from scalars, arrays, structures and unions, the bytes put in the data section are exactly the object's initial value: each constant (string literals cut off or NUL-filled) at the offset of the sub-object it initialises, zero everywhere else including padding, and as many bytes as the object has.", "quantifier": "All types (any nesting and sizes), all initialisers without two initialised members of one union, all constants, all load addresses aligned for the type.", "why_tests_cant": "Tests can only look at a few declarations; offsets, alignment directives and tail padding interact for every nesting of types.", "anchors": ["src/cc/frontend/cc_misc.c:construct_initial_value", "src/cc/backend/emit_code.c:emit_varinit", "src/cc/frontend/type.c:type_size", "src/cc/frontend/initializer.c:flatten_initializer"]}
{"id": "C55", "title": "Statements and conditions run as written", "statement": "Compiled code of a function body runs like the C statements it was made from: loops, switch, break, continue, goto, return and short-circuit conditions take the same path, the function ends with the same result and the same memory and output, it does not end if the program does not, and it never jumps to a block that does not exist.", "quantifier": "All function bodies built from the statements and expressions of the model, any nesting and size; all operations, values, initial registers and memories; all numbers of steps.", "why_tests_cant": "The paths through nested loops, switches and gotos are unbounded, and code may run for ever.", "anchors": ["src/cc/backend/codegen.c:gen_stmt", "src/cc/backend/codegen.c:gen_switch", "src/cc/backend/codegen_expr.c:gen_cond_jmp", "src/cc/backend/codegen_expr.c:gen_compare_expr", "src/cc/frontend/fe_misc.c:make_cond", "src/cc/frontend/fe_misc.c:make_not_expr"]}
{"id": "C56", "title": "Constant folding in the back end gives the value the instruction would have computed", "statement": "When the back end replaces an integer instruction on constants (or with one constant operand: x+0, 0-x, x*1, x*-1, x/1, 0<<x, ...) by a constant, a copy or a negation, the replacement has the bits the instruction would have computed at its width and signedness; casts of constants truncate or extend like the cast instruction; comparisons of constants give the truth value of the comparison at the width; and folded constants are themselves safe to fold again.", "quantifier": "all operators, widths 8/16/32/64, signednesses and 64-bit constants held for the operands; all register contents", "why_tests_cant": "Ten operators, four widths, two signednesses and 2^128 operand pairs, and the constant is held in a 64-bit cell whose upper bits must agree with the width; sample tests do not reach operands whose upper bits come from an earlier fold.", "anchors": ["src/cc/backend/ir.c:new_ir_bop", "src/cc/backend/ir.c:new_ir_unary", "src/cc/backend/optimize.c:constant_folding", "src/cc/backend/optimize.c:calc_const_expr", "src/cc/backend/optimize.c:calc_const_cond", "src/cc/backend/codegen_expr.c:gen_cast"]}
{"id": "C57", "title": "Removing unused results does not change what a function does", "statement": "The pass that removes instructions whose result is not used (run at every optimization level) leaves the behaviour of the function as it is: block by block the same memory, calls, output and result, for runs of any length, also endless ones; calls are kept even if their result is unused; and after the pass no remaining instruction computes a register that nobody reads.", "quantifier": "all functions (any number of blocks, instructions, phi functions), all machines in which removable instructions have no effect but their result, all initial registers and memories, all run lengths", "why_tests_cant": "The set of functions and their runs is unbounded; a test shows one function compiled right on one input.", "anchors": ["src/cc/backend/optimize.c:remove_unused_vregs"]}
{"id": "C58", "title": "The edges of the control flow graph are exactly the possible jumps of reachable blocks", "statement": "For every function the recorded predecessors of a block are exactly the reachable blocks that can go to it, each as often as it can go there; emptying the blocks without predecessors (other than the first) does not change what the function does.", "quantifier": "all functions: any number of blocks, any jumps and jump tables into the function; all runs", "why_tests_cant": "Graphs of unbounded size with any shape of loops, irreducible flow and unreachable parts.", "anchors": ["src/cc/backend/ir.c:detect_from_bbs", "src/cc/backend/optimize.c:optimize"]}
{"id": "C59", "title": "Merging constant offsets does not change what a function does", "statement": "Rewriting an address or a sum followed by the addition or subtraction of a constant into one instruction gives the same registers, memory and effects, for all widths and all constants, wrap-around included, and for chains of any length.", "quantifier": "all instruction lists in which sums go to fresh registers (as the code generator makes them), all widths, constants, register contents and memories", "why_tests_cant": "2^64 constants and unbounded chains; the rewritten instruction reads an operand later than the original one.", "anchors": ["src/cc/backend/optimize.c:peephole"]}
{"id": "C60", "title": "Translation to SSA form preserves behaviour and assigns each register once", "statement": "With optimization on, renaming the virtual registers of a function into versions and inserting phi functions yields a function that performs, block by block and for any number of steps, the same actions with the same values; in it no virtual register is assigned at two places, and parameters are never assigned.", "quantifier": "every function with exact control flow edges whose first block is not a jump target, every assignment of registers to memory, every machine, every initial register content and every number of steps", "why_tests_cant": "Whether versions and phi operands meet on every path depends on the shape of the whole control flow graph; tests see a few graphs.", "anchors": ["src/cc/backend/ssa.c: make_ssa, ssa_transform, assign_new_vregs, insert_phis", "src/cc/backend/optimize.c: optimize"]}
{"id": "C61", "title": "Copy propagation keeps the meaning of a function and comes to an end", "statement": "At -O, after the translation to SSA form, the compiler replaces every use of a register that only holds a copy by what it copies, turns a phi function with a single value into a move, and folds instructions. The function so obtained does exactly what it did before, block by block and for ever, for every function that assigns each register before it reads it (parameters excepted), and the repetition until nothing changes always stops.", "quantifier": "all functions in SSA form (any number of blocks, any loops) whose reads are preceded by assignments, all machine states, all runs of any length, all foldings of single instructions and jumps that keep their meaning", "why_tests_cant": "Whether a copied register still has its value at a use depends on all paths through the function; tests run a few paths of a few functions and cannot show that the fixpoint iteration terminates.", "anchors": ["src/cc/backend/optimize.c:copy_propagation", "src/cc/backend/optimize.c:replace_register", "src/cc/backend/optimize.c:replace_register_in_bb"]}
{"id": "C62", "title": "Leaving SSA form keeps the meaning of the function", "statement": "When the compiler replaces the phi functions of a function in SSA form by moves, splitting the edges that need a block of their own, the resulting function has no phi functions left and produces the same effects in the same order, ends when the original does and with the same result.", "quantifier": "every function in SSA form (any number of blocks, edges, jump tables and phi functions), every machine, every initial state and every number of executed blocks", "why_tests_cant": "The pass inserts blocks while it iterates, rewrites jumps and reorders phi functions; whether a move lands on an edge that does not need it depends on the whole control-flow graph.", "anchors": ["src/cc/backend/ssa.c:insert_unconditional_bb", "src/cc/backend/ssa.c:make_from_bb_unconditional", "src/cc/backend/ssa.c:replace_phis", "src/cc/backend/ssa.c:resolve_phis"]}
{"id": "C63", "title": "The optimizer as a whole keeps the meaning of a function", "statement": "With -O the compiler runs a function through all its passes: unreachable code is cleared, offsets and immediates are merged, the function is put into SSA form, copies are propagated, unused values are removed, the SSA form is left again and superfluous blocks are removed. All of this ends, and the code that comes out returns exactly when the source function returns, with the same effects in the same order and the same final state; it stops where the source stops and runs for ever where the source does.", "quantifier": "every function (any number of blocks, loops, jump tables, registers), every machine, every initial state and every run, including runs that never end", "why_tests_cant": "Each pass relies on what the passes before it establish, on every path of every function; tests run a few functions and cannot show that the repeated passes end or that a pass never meets a function it was not made for.", "anchors": ["src/cc/backend/optimize.c:optimize", "src/cc/backend/optimize.c:copy_propagation", "src/cc/backend/ssa.c:make_ssa", "src/cc/backend/ssa.c:resolve_phis", "src/cc/backend/optimize.c:remove_unnecessary_bb"]}
{"id": "C64", "title": "Without -O, the clean-up of a function always ends and keeps its meaning", "statement": "Compiled without -O, a function still loses unreachable instructions, unused values and superfluous blocks, and its offsets and immediates are merged. This always ends, and the code that comes out returns exactly when the function as generated returns, with the same effects in the same order and the same final state; it stops where that stops and runs for ever where that does.", "quantifier": "every function the code generator makes (any number of blocks, loops, jump tables, registers, jumps to the next block, floating-point conditions), every machine, every initial state and every run, including runs that never end", "why_tests_cant": "The passes remove code and merge blocks depending on the whole graph; only a proof over all graphs and all runs shows that nothing observable is lost and that the repetition ends.", "anchors": ["src/cc/backend/optimize.c:optimize", "src/cc/backend/optimize.c:peephole", "src/cc/backend/optimize.c:remove_unused_vregs", "src/cc/backend/optimize.c:remove_unnecessary_bb"]}
{"id": "C65", "title": "x86-64 code computes what the intermediate code means", "statement": "For every straight-line piece of integer intermediate code with registers assigned, the x86-64 instructions the compiler emits for it (moves, constants, + - * & | ^ << >> on all sizes, / and % on 32 and 64 bits (C promotes smaller operands), negation, complement, integer conversions, comparisons, addresses of locals, loads, stores, spill loads and stores, the function result) leave every destination register, memory and the result with the values the operations prescribe for their operand sizes, change no register the allocator did not reserve, and a conditional jump is taken exactly when its condition holds. The rewriting into two-address form with small immediates that precedes emission keeps the meaning of every block, and no assertion of the emitter can fail on its output.", "quantifier": "all instruction sequences, all register assignments allowed by the register allocator, all operand values, all immediates, all processor states", "why_tests_cant": "Operand values, sizes, register choices (is the operand already in rax, is rdx alive, does the shift count come from rcx) and constants multiply to far more combinations than any test compiles, and the fixed registers of MUL, DIV and shifts fail only for particular assignments.", "anchors": ["src/cc/arch/x64/ir_x64.c:ei_add", "src/cc/arch/x64/ir_x64.c:ei_mul", "src/cc/arch/x64/ir_x64.c:ei_div", "src/cc/arch/x64/ir_x64.c:ei_mod", "src/cc/arch/x64/ir_x64.c:ei_lshift", "src/cc/arch/x64/ir_x64.c:ei_rshift", "src/cc/arch/x64/ir_x64.c:ei_cast", "src/cc/arch/x64/ir_x64.c:ei_cond", "src/cc/arch/x64/ir_x64.c:ei_jmp", "src/cc/arch/x64/ir_x64.c:convert_3to2", "src/cc/arch/x64/ir_x64.c:tweak_irs", "src/cc/arch/x64/ir_x64.c:detect_extra_occupied"]}
{"id": "C66", "title": "x86-64 machine code is the instruction that was written", "statement": "For every x86-64 instruction and every choice of operands the assembler accepts (registers of all sizes, immediates, memory operands with base, index, scale and offset, SSE registers, jumps, calls), the bytes it stores are decoded by the processor as that instruction with those operands, whatever follows them; they fit the buffer the assembler reserves; and a section is decoded as the instructions that were written, one after the other.", "quantifier": "all instructions, operand sizes, registers, immediates, offsets, and sequences of instructions", "why_tests_cant": "The combinations of sizes, sixteen registers, prefixes, ModRM, SIB and displacement forms are too many to test, and the special cases (rsp, rbp, r12, r13, ah, sil) fail for single registers only.", "anchors": ["src/as/arch/x64/asm_code.c:assemble_inst", "src/as/arch/x64/asm_code.c:put_rex0", "src/as/arch/x64/asm_code.c:asm_mov_ir", "src/as/arch/x64/asm_code.c:asm_lea_ir", "src/as/arch/x64/asm_code.c:asm_add_imr", "src/as/arch/x64/ir_asm_x64.c:make_jmp_long", "src/as/asm_code.h:Code"]}
{"id": "C67", "title": "Compiled integer code, as machine code, computes what the intermediate code means", "statement": "For every basic block of integer intermediate code with registers assigned, the assembler accepts every instruction the x86-64 back end emits for it, and a processor that executes the resulting bytes reaches a state that holds, in the assigned registers, in memory and in the result register, the values the operations prescribe; a conditional jump, as bytes, is taken exactly when its condition holds.", "quantifier": "all blocks, all register assignments the allocator allows, all constants, all processor states", "why_tests_cant": "Compiler and assembler are tested on programs; a block uses a few of the thousands of combinations of instruction forms and registers for which both must agree.", "anchors": ["src/cc/arch/x64/ir_x64.c:ei_load", "src/cc/arch/x64/ir_x64.c:ei_add", "src/cc/arch/x64/ir_x64.c:ei_jmp", "src/as/arch/x64/asm_code.c:assemble_inst"]}
{"id": "C68", "title": "An expression is translated to one with the same type, value and effects", "statement": "For every integer or pointer expression the language gives a type and, in the current state, a value, the tree the front end builds (with its constant folding, algebraic simplification, implicit conversions, truth-value rewriting, address-of reduction and the temporaries of compound assignment) has the size, sign and pointee of that type, and evaluating it gives that value and the same final variables and memory; no temporary but its own is written.", "quantifier": "all expressions of the modelled operators, of any depth, all variable types, all states", "why_tests_cant": "Operators, operand types and constant or non-constant operands combine to thousands of paths in the tree builder; tests run a sample, and wrong simplifications show only for certain constants and values.", "anchors": ["src/cc/frontend/fe_misc.c:new_expr_num_bop", "src/cc/frontend/fe_misc.c:new_expr_addsub", "src/cc/frontend/fe_misc.c:new_expr_cmp", "src/cc/frontend/fe_misc.c:make_cond", "src/cc/frontend/fe_misc.c:make_cast", "src/cc/frontend/fe_misc.c:make_refer", "src/cc/frontend/fe_misc.c:incdec_of", "src/cc/frontend/parser_expr.c:parse_expr"]}
{"id": "C69", "title": "The code of an expression computes its value", "statement": "For every integer or pointer expression and every state in which the language gives it a value, the intermediate code generated for it (including short-circuit evaluation, conditional expressions, conditional jumps, constant folding on operands, reuse of variables as operands, and assignments through pointers) runs to its end without undefined behaviour and leaves the value in the operand it returns, and memory and variables as the language says; the code of a condition reaches its first target exactly when the value is not 0.", "quantifier": "all expressions of the modelled operators, of any depth, all variable types and storage, all states", "why_tests_cant": "The generator keeps values in variables, constants or new registers and folds constants while it emits; whether a value is still right when it is used depends on everything emitted in between, for arbitrarily nested expressions.", "anchors": ["src/cc/backend/codegen_expr.c:gen_expr", "src/cc/backend/codegen_expr.c:gen_cond_jmp", "src/cc/backend/codegen_expr.c:gen_cast", "src/cc/backend/codegen_expr.c:gen_ternary", "src/cc/backend/codegen_expr.c:gen_assign_sub", "src/cc/backend/codegen_expr.c:gen_expr_incdec", "src/cc/backend/ir.c:new_ir_bop"]}
{"id": "C70", "title": "Spilling keeps the meaning of the function", "statement": "When a function needs more values at a time than there are registers, or has variables in memory, the code after register allocation does what the function does: same effects in the same order, same values in live registers and in the stack frame, it goes on exactly when the function does; temporaries are of the class of what they hold and the frame pointer is left alone.", "quantifier": "every function, every register file, every choice of spilled registers, every run of any length, whatever calls leave in the registers they destroy", "why_tests_cant": "The interplay of spilling, repeated allocation rounds and reused liveness information depends on the whole function; tests only see a few register pressures.", "anchors": ["src/cc/backend/regalloc.c: alloc_physical_registers, insert_load_store_spilled_irs, insert_tmp_reg", "src/cc/backend/ir.c: spill_vreg"]}
{"id": "C71", "title": "Register allocation ends", "statement": "The loop that assigns registers, spills and rewrites ends after a number of rounds bounded by the size of the function.", "quantifier": "every function and every register file", "why_tests_cant": "Non-termination shows up only on particular pressure patterns.", "anchors": ["src/cc/backend/regalloc.c: alloc_physical_registers"]}
{"id": "C72", "title": "WebAssembly code of expressions computes their value", "statement": "For every expression of integers and pointers and every state, the WebAssembly code is well-formed and, if the expression has a value in C, running it leaves exactly that value on the operand stack and the variables and memory as C has them; code of a condition leaves whether it holds.", "quantifier": "every expression tree built from constants, variables in locals, on the stack or in the data section, casts, operators, assignments, increments, dereferences, conditionals, calls; every state", "why_tests_cant": "Each combination of widths, signedness, storage and use of the value takes another path; a missing operand or a value one bit too wide shows only for certain trees and values.", "anchors": ["src/wcc/gen_wasm.c: gen_expr, gen_cond, gen_cast_to, gen_incdec, gen_assign_sub", "src/wcc/traverse.c: traverse_expr, te_assign, te_incdec"]}
{"id": "C73", "title": "WebAssembly code of statements does what the statement does", "statement": "For every statement built from expressions, blocks, if, while, do, for, switch with labels, break, continue and return, the WebAssembly code is well-formed and, whenever C defines what the statement does, running it leaves the same variables and memory, is left the same way (end or return with the same value) and leaves no extra operand.", "quantifier": "every nesting of statements, every layout of case labels, every state, every number of loop iterations", "why_tests_cant": "Branch depths depend on the whole nesting around a break, continue or return and on how many case labels precede it; a wrong depth or table entry shows only for certain nestings and values.", "anchors": ["src/wcc/gen_wasm.c: gen_stmt, gen_switch, gen_switch_table_jump, squash_cases, gen_while, gen_do_while, gen_for, gen_if, gen_return", "src/wcc/traverse.c: traverse_stmt", "src/cc/frontend/fe_misc.c: check_funcend_return"]}
{"id": "C74", "title": "A function compiled to WebAssembly returns what C says, its variables never share storage", "statement": "For every function with any parameters and locals (scalars, pointers, arrays, structures, some with their address taken), the variables get distinct locals of the right type or disjoint, aligned places in the stack frame; the code is well-formed, and calling it with arguments returns the value C defines for the body, with the same memory outside the frame, and the stack pointer restored.", "quantifier": "every list of variables with any types, sizes, alignments and address-taken marks; every body; all argument values; every initial memory", "why_tests_cant": "An overlap or a wrong local number depends on the mix of parameters, types and address-taken variables; a frame that is not released or a missing value at the end shows only for certain bodies.", "anchors": ["src/wcc/gen_wasm.c: allocate_local_variables, gen_defun, gen_clear_local_var", "src/wcc/traverse.c: traverse_defun"]}
{"id": "C75", "title": "The end of main without return gives 0, and an end the compiler takes for unreachable is never reached", "statement": "If the compiler decides from the shape of a function body that its end cannot be reached, no execution reaches it. main ends, whenever its body does, with the value of the return that was executed, or with 0 if its end was reached; nothing else about it changes.", "quantifier": "every body of nested blocks, if, loops, switch, break, continue, return, labels and goto; every execution of any length", "why_tests_cant": "Whether an end is reachable depends on all paths through breaks, labels and constant conditions; a test sees only the paths it takes.", "anchors": ["src/cc/frontend/fe_misc.c: check_func_reachability, check_reachability_stmts, check_reachability_stmt, check_func_return", "src/cc/frontend/ast.c: is_const_truthy, is_const_falsy"]}
{"id": "C76", "title": "The assembler reads the assembly text the compiler writes as the instructions that were meant", "statement": "For every x86-64 instruction the compiler can write (all mnemonics of its instruction macros, registers of every size, 64-bit constants, memory operands with base, index, scale and offset, constant addresses, %rip-relative labels with offset, jump and call targets), the line it writes is accepted by the assembler and read as that instruction with those operands; two different instructions are never written the same; and a basic block of integer intermediate code, written as text, read, encoded and executed, ends in the state the intermediate code prescribes.", "quantifier": "all instructions, registers, constants, offsets, labels, blocks and processor states", "why_tests_cant": "The compiler and the assembler are separate programs that agree only through text; numbers, register names, operand forms and mnemonics combine to more lines than tests can write, and a wrong reading of one of them gives a wrong program without a message.", "anchors": ["src/cc/arch/x64/emit_x64.c:offset_indirect", "src/cc/arch/x64/emit_x64.c:label_indirect", "src/cc/backend/emit_code.c:emit_asm2", "src/as/parse_asm.c:parse_inst", "src/as/parse_asm.c:parse_line", "src/as/parse_asm.c:parse_expr", "src/as/arch/x64/parse_x64.c:parse_operand", "src/as/arch/x64/parse_x64.c:find_register"]}
{"id": "C77", "title": "Expressions are grouped as the C grammar prescribes", "statement": "For every list of tokens, reading an expression succeeds with a tree exactly when the grammar of C11 6.5 (with the extensions xcc documents by accepting them) derives the tokens consumed as that tree and the next token cannot continue the expression: each operator gets the operands C gives it, whatever the nesting, and no other token list is accepted. The grammar gives every token list at most one tree, and every tree has a spelling that is read back as that tree.", "quantifier": "all token lists, all trees of any depth, all nonterminals from expression to cast-expression, all continuations", "why_tests_cant": "the combinations of operators, prefix and postfix operators, parentheses, casts and calls are unbounded in number and depth; a wrong precedence shows only in the combination that exercises it", "anchors": ["src/cc/frontend/parser_expr.c:parse_precedence", "src/cc/frontend/parser_expr.c:get_rule", "src/cc/frontend/parser_expr.c:unary", "src/cc/frontend/parser_expr.c:binary", "src/cc/frontend/parser_expr.c:ternary", "src/cc/frontend/parser_expr.c:assign", "src/cc/frontend/parser_expr.c:lparen", "src/cc/frontend/parser_expr.c:size_align_of", "src/cc/frontend/parser_expr.c:parse_args", "src/cc/frontend/parser_expr.c:parse_generic"]}
{"id": "C78", "title": "A declarator gives its identifier the type C prescribes", "statement": "For every declarator - pointers with qualifiers, arrays, functions with parameter lists, parentheses, nested to any depth, with or without identifier - the type the compiler records for the identifier is the one C11 6.7.6 derives by reading the declarator from the identifier outwards; parameters of array and function type become pointers; the whole declarator is consumed and no type that existed before is altered. (Findings: redundant double parentheses followed by a suffix lose the suffix, abstract function declarators without inner parentheses are misread.)", "quantifier": "all declarators (trees of any size), all specifier types, all states of the heap of type objects, all following tokens", "why_tests_cant": "Declarators nest without bound, and the compiler builds them by overwriting shared placeholder objects in place; whether a placeholder was copied before it was filled depends on the nesting pattern, and tests use only a few familiar patterns.", "anchors": ["src/cc/frontend/parser_type.c:parse_declarator", "src/cc/frontend/parser_type.c:parse_direct_declarator", "src/cc/frontend/parser_type.c:parse_direct_declarator_suffix", "src/cc/frontend/parser_type.c:parse_pointer", "src/cc/frontend/parser_type.c:parse_funparams", "src/cc/frontend/type.c:qualified_type"]}
{"id": "C79", "title": "Declaration specifiers name the type C prescribes, in any order", "statement": "For every list of type words that is a permutation of a line of C11 6.7.2p2, with storage classes and qualifiers interspersed at any place, the compiler reads exactly these words and yields the type of that line, its qualifiers and its storage class; the same for struct, union, enum, _Bool, void and typedef names; a label is not taken for a type. Exactly those sequences of words are accepted, besides an explicit list of others (findings). (Finding: qualifiers of floating types are lost.)", "quantifier": "all token sequences of any length, all sets of typedef names", "why_tests_cant": "Specifiers may be permuted and interspersed freely; the compiler counts them and the check on the counts is a hand-written formula; tests try the customary orders only.", "anchors": ["src/cc/frontend/parser_type.c:parse_raw_type", "src/cc/frontend/fe_misc.c:check_type_combination", "src/cc/frontend/fe_misc.c:no_type_combination", "src/cc/frontend/type.c:get_fixnum_type"]}
{"id": "C80", "title": "A linked WebAssembly module calls, points to and reads what the sources name", "statement": "When linking object files and archive members succeeds, every reference to a function is, in the function index space of the linked module, the function it means: the file's own for a local symbol, else the strong definition, else the first weak one, else the imported one; every function pointer finds that function in the table; every reference to a variable means its definition; at start every byte of every data segment of every file is at the address its symbols have, files do not overlap each other, the stack or the heap, and alignment is kept; two strong definitions of a name, undefined names and missing exports are refused; the numbers patched into the code are decoded as the values, in the same number of bytes. (Findings: a static symbol with the name of another file's global symbol is bound to the latter; negative addends are lost; extern variables shift the alignments.)", "quantifier": "all sets of files of any sizes in any order, all archive loading sequences, all orders of iteration of the hash tables, all symbol tables, segments and stack sizes", "why_tests_cant": "The numbering of every function depends on all files before it, and resolution depends on their order; tests link a handful of files.", "anchors": ["src/wcc/wasm_linker.c:resolve_symbols", "src/wcc/wasm_linker.c:renumber_symbols", "src/wcc/wasm_linker.c:remap_data_address", "src/wcc/wasm_linker.c:renumber_indirect_functions", "src/wcc/wasm_linker.c:apply_relocation", "src/wcc/wasm_linker.c:out_data_section"]}
{"id": "C81", "title": "Object files carry sections, definitions and references unchanged from assembler to linker", "statement": "The object file that the assembler writes is accepted by the linker, alone or anywhere inside an archive. Every section that is not empty is found with its name, kind, flags, alignment, size and bytes. Every global or weak label defined in the source is found by its name, at its address, and no other name is. Every place that waits for a label is found, in its section, at its offset, and the address computed for it is that of the label plus the addend. Local symbols come first and are counted. Labels are global, weak and defined exactly as the source says, and a second definition is refused.", "quantifier": "all lists of sections, labels and references of any size, all section addresses and all global address maps, all bytes before and after the object in its file", "why_tests_cant": "A test links some programs; the layout depends on all sizes, names and numbers of sections, symbols and relocations at once, and an offset error shows only for particular sizes.", "anchors": ["src/as/emit_elf.c:emit_elf_obj", "src/as/emit_elf.c:construct_symtab", "src/as/emit_elf.c:construct_relas", "src/as/as_util.c:strtab_add", "src/ld/elfobj.c:read_elf", "src/ld/elfobj.c:elfobj_find_symbol", "src/ld/ld.c:calc_rela_sym_address", "src/as/parse_asm.c:add_label_table"]}
{"id": "C82", "title": "Statements are grouped, and jumps attached, as C prescribes", "statement": "The parser of statements accepts the text of every function body that C's grammar and constraints allow, whatever follows it, and builds the very tree of that grammar: else belongs to the nearest if, a label to the statement after it, items to their block. What it accepts otherwise differs only by a body missing right before a closing brace. Every break points to the innermost loop or switch around it, every continue to the innermost loop, every case and default to the innermost switch, and a switch records exactly its own labels in the order of the text; labels are distinct and every goto has its label. The parse always ends.", "quantifier": "every token list, every statement tree of any depth and length, every assignment of types to expressions", "why_tests_cant": "Nesting is unbounded: which else, break, continue and case belongs to which statement must hold for every combination of nested statements, and no set of programs covers them.", "anchors": ["src/cc/frontend/parser.c:parse_stmt", "src/cc/frontend/parser.c:parse_stmts", "src/cc/frontend/parser.c:parse_case", "src/cc/frontend/fe_misc.h:SAVE_LOOP_SCOPE"]}
{"id": "C83", "title": "A call that is inlined does what the call would do", "statement": "When calls of inline functions are replaced by copies of their bodies, the program does what it would do if each call were made: the copies have locals of their own and change no others, parameters hold the arguments, static variables are shared by all copies, global and extern names keep their meaning, whatever the names of the caller's variables, inlined calls inside inlined bodies and in arguments included.", "quantifier": "every set of inline functions and every function calling them, with any nesting of blocks, loops and inlined calls, any names, any contents of the variables, any number of steps", "why_tests_cant": "whether a name in a copy reaches the copy's variable depends on the chain of scopes at the call and on all names in use; tests cover few of the combinations of nesting, shadowing, statics and repetition", "anchors": ["src/cc/frontend/fe_misc.c:duplicate_inline_function_expr", "src/cc/frontend/fe_misc.c:duplicate_inline_function_stmt", "src/cc/frontend/fe_misc.c:embed_inline_funcall", "src/cc/frontend/parser_expr.c:funcall", "src/cc/backend/codegen_expr.c:gen_inlined"]}
{"id": "C84", "title": "Preparing the arguments of a call keeps an evaluation C allows", "statement": "Whatever appears in the arguments of a call (calls, conditionals, commas, assignments, increments, compound assignments, statement expressions), and in whatever order the compiled program evaluates its operands, the program makes the accesses and calls, gets the values and leaves the memory of an evaluation that C allows for the source: every operand is evaluated exactly as often as C says, operands of &&, || and ?: only when asked for, the left side of op= once. While arguments are loaded into registers, no call, branch or (on x64) instruction with fixed registers runs.", "quantifier": "all expressions of the source without structures, all meanings of operators and functions, all memories, all evaluation orders, both settings (x64 and others)", "why_tests_cant": "Tests fix a few nestings and one evaluation order; a lost or doubled side effect shows only for particular combinations of nesting and order.", "anchors": ["src/cc/frontend/fe_misc.c:simplify_funcall", "src/cc/frontend/fe_misc.c:simplify_funarg_recur", "src/cc/frontend/fe_misc.c:unnest_arg", "src/cc/frontend/fe_misc.c:transform_assign_with", "src/cc/frontend/parser_expr.c:funcall"]}
{"id": "C85", "title": "The driver's result does not depend on the schedule", "statement": "Whatever the order in which the preprocessor, the compiler proper and the assembler run, block on their pipes and end, xcc exits with 0 exactly if each tool succeeds on the complete output of the one before (and the linker on all objects in command-line order), the outputs are then the complete ones, a failing -c leaves no half-made object, no process is left running and no temporary file is left, and xcc ends.", "quantifier": "every behaviour of the tools, every pipe capacity, every interleaving of their reads, writes and exits, every order in which the kernel hands back ended children, every list of sources", "why_tests_cant": "a test sees one interleaving per run; the orders that lose a status or block for ever (a child dying between two moves of another) are rare and cannot be forced from outside", "anchors": ["src/xcc/main.c: compile, compile_csource, compile_asm, do_compile, pipe_exec, exec_with_ofd, wait_child, wait_process", "src/cc/cc1.c: main", "src/as/as.c: main, parse_file", "src/cpp/cpp.c: main"]}
{"id": "C86", "title": "Archive members are found through the symbol table, read whole and loaded once", "statement": "For every well-formed archive (ar format with a symbol table of any size, entries in any order) reading it succeeds; a name is found exactly if the symbol table lists it, and a name listed for one member leads to that member's offset. A member is handed to the object reader with the file positioned at its data, its name without the slash and its exact size. Over any sequence of requests each member is read at most once, exactly the members of the requested symbols are read, and all symbols of one member yield the same object.", "quantifier": "every archive file with any number of symbols, members, names and offsets; every object reader; every sequence of requests", "why_tests_cant": "the table is searched with hand-written binary searches over offsets in arbitrary order; tests link a few archives with a handful of members", "anchors": ["src/util/archive.c:load_archive", "src/util/archive.c:allocate_contents_buffer", "src/util/archive.c:load_archive_content", "src/ld/ld.c:resolve_symbols_archive", "libsrc/stdlib/bsearch.c:bsearch"]}
{"id": "C87", "title": "Conversions C forbids are diagnosed, conversions C allows pass", "statement": "When a value is assigned, passed, returned or used as an initializer, the compiler is silent only if C's rules for simple assignment allow the conversion (arithmetic types; the same structure; pointers to compatible types without losing a qualifier; void pointers; null pointer constants; _Bool from pointers), and it is silent if they do; a cast is accepted exactly if C allows it; values of const type, arrays and functions are never assigned to; a mismatch with a structure is an error, never a warning.", "quantifier": "all types of any depth: pointers, arrays, functions with any parameters, structures and unions, complete or not, with all qualifiers; constants 0 and other values; implicit and explicit conversions", "why_tests_cant": "types nest without bound and the check recurses through both; tests try some pairs", "anchors": ["src/cc/frontend/type.c:same_type_without_qualifier", "src/cc/frontend/type.c:can_cast", "src/cc/frontend/fe_misc.c:check_cast", "src/cc/frontend/parser_expr.c:assign"]}
{"id": "C88", "title": "String literals and character constants mean what C says", "statement": "Adjacent string literals made of plain characters and escape sequences, with any white space and comments between them, become one string with the bytes C11 6.4.5 says and one terminator, and reading stops where the literal ends; with the prefix L on one of them, the wide characters of the UTF-8 source; a character constant has the value 6.4.4.4 says, and L'c' the code of the character.", "quantifier": "every sequence of elements, every number of adjacent literals, every gap and every text behind", "why_tests_cant": "Tests try a few strings; the digits of an escape run into the text that follows, pieces and comments combine freely and every Unicode code must decode, so only a statement for all element sequences and contexts covers them.", "anchors": ["src/cc/frontend/lexer.c:read_string", "src/cc/frontend/lexer.c:read_char", "src/cc/frontend/lexer.c:backslash", "src/cc/frontend/lexer.c:read_utf8_char", "src/cc/frontend/lexer.c:convert_str_to_wstr", "src/cc/frontend/lexer.c:skip_whitespace_or_comment"]}
{"id": "C89", "title": "floor, ceil, modf, frexp, ldexp, fabs, copysign and the classification functions are exact", "statement": "For every double: floor and ceil return the neighbouring integer, modf splits the number into an integer and a fraction of its sign without loss, frexp returns a fraction in [1/2,1) and an exponent whose product is the number, ldexp multiplies by a power of two exactly or gives the infinity of the right sign, fabs, copysign and signbit touch the sign only, and finite, isnan and isinf tell numbers, NaNs and infinities apart.", "quantifier": "all 2^64 bit patterns and all exponents", "why_tests_cant": "The functions work on bit patterns with masks, shifts and carries from the fraction into the exponent; tests reach a handful of the 2^64 values and the errors sit at subnormal numbers, powers of two and the ends of the exponent range.", "anchors": ["libsrc/math/floor.c:floor", "libsrc/math/ceil.c:ceil", "libsrc/math/frexp.c:frexp", "libsrc/math/ldexp.c:ldexp", "libsrc/math/copysign.c:copysign", "libsrc/math/isinf.c:__isinf", "libsrc/math/_ieee.h:GET_BIASED_EXPO"]}
{"id": "C90", "title": "Memory streams hold exactly what is written and stay inside their buffer", "statement": "After any sequence of writes and flushes on a stream from open_memstream, a flush leaves in *ptr all bytes written with a terminator and in *sizeloc their number; a stream from fmemopen stores the bytes as far as they fit, terminated, leaves the rest of the caller's buffer alone and never accesses memory outside it; reading delivers the bytes in order, each once.", "quantifier": "all sequences of calls, all sizes of buffers and writes, all contents of fresh memory", "why_tests_cant": "The buffer is moved and doubled at moments that depend on the whole history of calls, and positions are 32-bit numbers that wrap; tests write a few short strings.", "anchors": ["libsrc/stdio/fmemopen.c:_memwrite", "libsrc/stdio/fmemopen.c:_growmem", "libsrc/stdio/fmemopen.c:_memread", "libsrc/stdio/fmemopen.c:_memseek", "libsrc/stdio/open_memstream.c:open_memstream"]}
{"id": "C91", "title": "Source lines are joined at backslashes as C says", "statement": "Reading a source file delivers exactly the lines of its text after every backslash-newline is deleted (C11 5.1.1.2, phase 2), each with the line number up to which the file was consumed; carriage returns before newlines and a missing last newline make no difference.", "quantifier": "all files, of any number and length of lines, with any continuation pattern", "why_tests_cant": "Whether a line continues depends on all lines joined before it, so the number of cases is unbounded; tests contain a few macros over two or three lines.", "anchors": ["src/util/util.c:getline_cont", "src/util/util.c:getline_cat", "src/util/util.c:getline_chomp"]}
{"id": "C92", "title": "Command lines are read in the one way C compilers' users expect", "statement": "Each word of a command line is taken exactly once: as an operand, as the option with the longest name that fits, as the argument of the option before it, or it is reported; joined, '='-separated and separate arguments arrive unchanged; no word behind the end is read, and no option of the programs hides another or shares its code.", "quantifier": "all option tables without hidden names, all command lines of any length, all option arguments", "why_tests_cant": "Which option a word means depends on the order of the table and on the word before; tests try a handful of command lines.", "anchors": ["src/util/util.c:optparse", "src/xcc/main.c:parse_options", "src/wcc/wcc.c:parse_options", "src/ld/ld.c:parse_options", "src/cc/cc1.c:main", "src/cpp/cpp.c:main", "src/as/as.c:main"]}
{"id": "C93", "title": "fopen modes, getenv, strdup, calloc, dirname and the character classes do what C and POSIX say", "statement": "fopen accepts a mode string exactly if it has one of r, w, a and at most one + and b, and opens with the flags C prescribes; getenv gives the value of the first entry with the name, or none; strdup and strndup give a copy of the string's first bytes and read nothing behind it; calloc gives zeroed memory of the size asked or fails; dirname gives the directory; the character classes contain the characters C lists and relate as C says.", "quantifier": "all mode strings, environments, names, strings, sizes, counts, paths and ints", "why_tests_cant": "The arguments are unbounded strings and 64-bit sizes; tests use a few usual ones, never a product that wraps or a size behind the string.", "anchors": ["libsrc/stdio/_detect_open_flag.c:_detect_open_flag", "libsrc/stdlib/getenv.c:getenv", "libsrc/string/strndup.c:strndup", "libsrc/string/strdup.c:strdup", "libsrc/stdlib/calloc.c:calloc", "libsrc/misc/dirname.c:dirname", "libsrc/misc/isalpha.c:isalpha", "libsrc/misc/toupper.c:toupper"]}
{"id": "C94", "title": "realloc keeps the contents and disturbs no other block", "statement": "After realloc of a block the new block has room for the new size and the old contents as far as both sizes go, and every other block is unchanged; if there is no memory the old block stays as it was; size 0 frees it; the call ends; all guarantees about malloc and free hold afterwards. Neither malloc nor free changes the contents of any block in use.", "quantifier": "all histories of calls and client stores, all blocks, all sizes up to 2^63-8192, all answers of the system to requests for memory", "why_tests_cant": "Whether a block is overwritten depends on the free list the whole history left behind.", "anchors": ["libsrc/stdlib/realloc.c:realloc", "libsrc/stdlib/malloc.c:malloc", "libsrc/stdlib/malloc.c:free"]}
{"id": "C95", "title": "mkstemps replaces exactly the six X", "statement": "mkstemps opens a file only if the template has six X before the suffix; then exactly these are replaced, by letters and digits, and any such name can come out; a refused template is unchanged.", "quantifier": "all templates, suffix lengths and random numbers", "why_tests_cant": "The outcome depends on random numbers and on templates of any length.", "anchors": ["libsrc/stdlib/mkstemps.c:mkstemps", "libsrc/stdlib/mkstemp.c:mkstemp"]}
{"id": "C96", "title": "The caret stands under the error", "statement": "When a message shows a source line, the caret below it stands in the very column in which the offending character was shown, whatever mixture of tabs and other characters precedes it and whatever the terminal's tab stops; the mark is as wide as the token, and a position outside the line gives no caret.", "quantifier": "every line, position, mark length and tab width", "why_tests_cant": "Tests compare a few messages, mostly without tabs; the alignment must hold for every line and every tab width.", "anchors": ["src/util/util.c:show_error_line"]}
