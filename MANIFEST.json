{
 "claims": [
  {
   "property": "C01",
   "status": "proved",
   "theorems": [
    "Cmm.Ctype.C01_isDigit",
    "Cmm.Ctype.C01_isUpper",
    "Cmm.Ctype.C01_isLower",
    "Cmm.Ctype.C01_isXdigit",
    "Cmm.Ctype.C01_isAlpha",
    "Cmm.Ctype.C01_isAlnum",
    "Cmm.Ctype.C01_isPrint",
    "Cmm.Ctype.C01_isSpace",
    "Cmm.Ctype.C01_toLower",
    "Cmm.Ctype.C01_toUpper",
    "Cmm.Ctype.C01_toLower_idem",
    "Cmm.Ctype.C01_toUpper_idem",
    "Cmm.Ctype.C01_case_roundtrip",
    "Cmm.Ctype.C01_toLower_alpha"
   ],
   "note": "All 256 character codes; each classifier is characterised by its code range."
  },
  {
   "property": "C02",
   "status": "proved",
   "theorems": [
    "Cmm.Str.C02_strLen",
    "Cmm.Str.C02_strCpy",
    "Cmm.Str.C02_strCat",
    "Cmm.Str.C02_strNcat"
   ],
   "note": "All strings and memories; result string, frame condition and returned pointer."
  },
  {
   "property": "C03",
   "status": "proved",
   "theorems": [
    "Cmm.Str.C03_strNcpy"
   ],
   "note": "All strings, sizes and memories."
  },
  {
   "property": "C04",
   "status": "proved",
   "theorems": [
    "Cmm.Str.C04_strCmp",
    "Cmm.Str.C04_strCmp_eq",
    "Cmm.Str.C04_strCmp_antisymm",
    "Cmm.Str.C04_strCmp_trans",
    "Cmm.Str.C04_strNcmp",
    "Cmm.Str.C04_bytesN_str"
   ],
   "note": "Sign of the comparison against the lexicographic order of byte lists, with antisymmetry and transitivity."
  },
  {
   "property": "C05",
   "status": "proved",
   "theorems": [
    "Cmm.Str.C05_strChr",
    "Cmm.Str.C05_strRchr"
   ],
   "note": "First and last occurrence, or -1."
  },
  {
   "property": "C06",
   "status": "partial",
   "theorems": [
    "Cmm.Str.C06_strStr_partial",
    "Cmm.Str.C06_strStr_nonsuffix",
    "Cmm.Str.C06_strStr_false",
    "Cmm.Str.C06_strStr_misses_suffix"
   ],
   "note": "The property is false of the code: a match at the very end is missed (C06_strStr_false, C06_strStr_misses_suffix). What does hold is C06_strStr_partial and C06_strStr_nonsuffix."
  },
  {
   "property": "C07",
   "status": "proved",
   "theorems": [
    "Cmm.Heap.C07_live",
    "Cmm.Heap.C07_free_apart",
    "Cmm.Heap.C07_malloc",
    "Cmm.Heap.C07_free",
    "Cmm.Heap.C07_malloc_succeeds"
   ],
   "note": "Induction over histories of malloc, free and client writes; sizes up to 65530 (larger ones are C10)."
  },
  {
   "property": "C08",
   "status": "proved",
   "theorems": [
    "Cmm.Heap.C08_sorted",
    "Cmm.Heap.C08_all_freed",
    "Cmm.Heap.C08_no_leak"
   ],
   "note": "Same histories as C07; no two free blocks touch, and the empty live set gives the initial heap."
  },
  {
   "property": "C09",
   "status": "proved",
   "theorems": [
    "Cmm.Heap.C09_unallocated",
    "Cmm.Heap.C09_double_free"
   ],
   "note": "Also after further frees and client writes, and for every address in no allocated block."
  },
  {
   "property": "C10",
   "status": "partial",
   "theorems": [
    "Cmm.Heap.C10_partial",
    "Cmm.Heap.C10_too_large",
    "Cmm.Heap.C10_wraps",
    "Cmm.Heap.C10_then_hangs",
    "Cmm.Heap.C10_false",
    "Cmm.Heap.C10_iMalloc_false"
   ],
   "note": "False of the code for 65531..65535: C10_wraps, C10_then_hangs, C10_false. C10_partial covers sizes up to 65530."
  },
  {
   "property": "C11",
   "status": "partial",
   "theorems": [
    "Cmm.Heap.C11_calloc_partial",
    "Cmm.Heap.C11_not_cleared",
    "Cmm.Heap.C11_false",
    "Cmm.Heap.C11_product_wraps"
   ],
   "note": "False of the code from 32768 bytes on (C11_not_cleared, C11_false) and when the product wraps (C11_product_wraps). C11_calloc_partial covers the rest."
  },
  {
   "property": "C12",
   "status": "proved",
   "theorems": [
    "Cmm.Stdlib.C12_atoi",
    "Cmm.Stdlib.C12_htoi",
    "Cmm.Stdlib.C12_atoi_decimal"
   ],
   "note": "All strings and values."
  },
  {
   "property": "C13",
   "status": "proved",
   "theorems": [
    "Cmm.Stdlib.C13_srand",
    "Cmm.Stdlib.C13_nonzero",
    "Cmm.Stdlib.C13_period",
    "Cmm.Stdlib.C13_all_values"
   ],
   "note": "Full period over the non-zero states."
  },
  {
   "property": "C14",
   "status": "proved",
   "theorems": [
    "Cmm.Crt0.C14_add32",
    "Cmm.Crt0.C14_add32_self",
    "Cmm.Crt0.C14_sub32",
    "Cmm.Crt0.C14_add_sub",
    "Cmm.Crt0.C14_mul32"
   ],
   "note": "All 32-bit operands and all memories, aliasing included."
  },
  {
   "property": "C15",
   "status": "partial",
   "theorems": [
    "Cmm.Crt0.C15_mod32_partial",
    "Cmm.Crt0.C15_div32_partial",
    "Cmm.Crt0.C15_div32_exact_iff",
    "Cmm.Crt0.C15_div32_false",
    "Cmm.Crt0.C15_div32_false_large",
    "Cmm.Crt0.C15_mod32_false",
    "Cmm.Crt0.C15_mod32_false_large"
   ],
   "note": "False of the code: C15_div32_false, C15_mod32_false and the large variants. C15_div32_partial and C15_mod32_partial give the exact result and when it is right."
  },
  {
   "property": "C16",
   "status": "proved",
   "theorems": [
    "Cmm.Crt0.C16_uCmp",
    "Cmm.Crt0.C16_uCmp_lt",
    "Cmm.Crt0.C16_uCmp_le"
   ],
   "note": "All pairs of words."
  },
  {
   "property": "C17",
   "status": "partial",
   "theorems": [
    "Cmm.Printf.C17_d_partial",
    "Cmm.Printf.C17_o",
    "Cmm.Printf.C17_x",
    "Cmm.Printf.C17_d_reads",
    "Cmm.Printf.C17_u_reads",
    "Cmm.Printf.C17_d_false",
    "Cmm.Printf.C17_x_signed_false"
   ],
   "note": "Exact texts of %d, %o, %x for every width up to 32767, alignment and pad character, for any DIV that is right on the numbers involved (unsigned DIV: all arguments). Texts read back to the argument and have the right length. False: zero padding of a negative number puts the zeros before the sign (C17_d_false); with signed DIV %x of a negative number is wrong (C17_x_signed_false)."
  },
  {
   "property": "C18",
   "status": "partial",
   "theorems": [
    "Cmm.Printf.C18_exact",
    "Cmm.Printf.C18_partial",
    "Cmm.Printf.C18_left_partial",
    "Cmm.Printf.C18_big_false",
    "Cmm.Printf.C18_destroys",
    "Cmm.Printf.C18_left_false"
   ],
   "note": "Right below 655360000 when not left justified (left justified: below 10000); exact text up to 1310720000; false above (C18_big_false), when left justified (C18_left_false), and the argument is overwritten (C18_destroys)."
  },
  {
   "property": "C19",
   "status": "partial",
   "theorems": [
    "Cmm.Printf.C19_partial"
   ],
   "note": "For every format of ordinary characters and valid conversions and every stream behaviour: exact sequence of characters, count and EUFMT. Outside: %ld where C18 is false, widths and strings beyond 32767."
  },
  {
   "property": "C20",
   "status": "proved",
   "theorems": [
    "Cmm.Stdio.C20",
    "Cmm.Stdio.C20_fflush",
    "Cmm.Stdio.C20_fclose",
    "Cmm.Stdio.C20_prefix",
    "Cmm.Stdio.C20_exit",
    "Cmm.Stdio.C20_total",
    "Cmm.Stdio.C20_fopen",
    "Cmm.Stdio.C20_std"
   ],
   "note": "For every sequence of successful fputc/fputs/fflush between arbitrary other actions; delivery after fflush, fclose and exit; success is guaranteed when the system takes every write (C20_total); under errors the delivered bytes are a prefix (C20_prefix). Buffers of streams are disjoint by construction of the model."
  },
  {
   "property": "C21",
   "status": "partial",
   "theorems": [
    "Cmm.Stdio.C21_feof",
    "Cmm.Stdio.C21_fgetc",
    "Cmm.Stdio.C21_console",
    "Cmm.Stdio.C21_fgets",
    "Cmm.Stdio.C21_partial",
    "Cmm.Stdio.C21_fopen",
    "Cmm.Stdio.C21_console_false",
    "Cmm.Stdio.C21_zero_false"
   ],
   "note": "Files: complete (C21_partial is the refinement to the specification). Console: as long as there is input (C21_console); false when the system gives no bytes (C21_console_false). fgets with n = 0 writes str[0] (C21_zero_false). fseek is not covered."
  },
  {
   "property": "C22",
   "status": "partial",
   "theorems": [
    "Cmm.Stdio.C22_partial",
    "Cmm.Stdio.C22_accepts",
    "Cmm.Stdio.C22_full",
    "Cmm.Stdio.C22_fputs_false",
    "Cmm.Stdio.C22_fgets_false"
   ],
   "note": "Complete except that fputs of an empty string and fgets with n <= 1 do not check the stream (C22_fputs_false, C22_fgets_false)."
  },
  {
   "property": "C23",
   "status": "partial",
   "theorems": [
    "Cmm.Environ.C23",
    "Cmm.Environ.C23_setEnv",
    "Cmm.Environ.C23_putEnv",
    "Cmm.Environ.C23_unsetEnv",
    "Cmm.Environ.C23_setEnv_bad",
    "Cmm.Environ.C23_putEnv_bad",
    "Cmm.Environ.C23_false"
   ],
   "note": "The environment kept by environ.cmm is a map: for every history of init, setEnv with overwrite true, putEnv, unsetEnv, client writes and client malloc/free over the modelled heap, getEnv returns exactly what the abstract map says. The overwrite argument is ignored by the code, so the clause about overwrite=false is false (C23_false). Strings handed in must lie in client memory, and setEnv(n, getEnv(n), true) is excluded because it reads freed memory."
  },
  {
   "property": "C24",
   "status": "proved",
   "theorems": [
    "Cmm.Environ.C24",
    "Cmm.Environ.C24_success",
    "Cmm.Environ.C24_asked",
    "Cmm.Environ.C24_canonical"
   ],
   "note": "absPath over the library's memory equals the component-by-component resolution of the path (walk); stated for an absolute PWD, buffers of at least two bytes and paths below 32767 bytes"
  },
  {
   "property": "C25",
   "status": "partial",
   "theorems": [
    "Cmm.Environ.C25_partial",
    "Cmm.Environ.C25_false"
   ],
   "note": "false for a one-byte buffer (C25_false: the byte after it is overwritten); C25_partial: for buffers of two bytes and more only the buffer changes"
  },
  {
   "property": "C26",
   "status": "partial",
   "theorems": [
    "Cmm.Err.C26_in_bounds",
    "Cmm.Err.C26_entry",
    "Cmm.Err.C26_messages",
    "Cmm.Err.C26_stack_overflow_false",
    "Cmm.Err.C26_stkChk_partial"
   ],
   "note": "The table lookups are in bounds; the claim about the stack overflow code is false (C26_stack_overflow_false)."
  },
  {
   "property": "C27",
   "status": "proved",
   "theorems": [
    "Cmm.Lex.C27_progress",
    "Cmm.Lex.C27_layout",
    "Cmm.Lex.C27_accepted",
    "Cmm.Lex.C27",
    "Cmm.Lex.C27_insert"
   ],
   "note": "C27_progress: every call that returns a token consumes input (lexAll is total); C27_layout/C27_accepted: a text lexes to a token list iff it is laid out from those lexemes with gaps; C27, C27_insert: gaps do not matter"
  },
  {
   "property": "C28",
   "status": "proved",
   "theorems": [
    "Cmm.Lex.C28_dec",
    "Cmm.Lex.C28_oct",
    "Cmm.Lex.C28_hex",
    "Cmm.Lex.C28_decimal"
   ],
   "note": "three bases, any continuation; C28_decimal: the usual decimal notation of every number below 2^31"
  },
  {
   "property": "C29",
   "status": "proved",
   "theorems": [
    "Cmm.Lex.C29"
   ],
   "note": "all words up to 128 characters, any continuation"
  },
  {
   "property": "C30",
   "status": "proved",
   "theorems": [
    "Cmm.Lex.C30"
   ],
   "note": "longest match over the table of all operators, for every input"
  },
  {
   "property": "C31",
   "status": "proved",
   "theorems": [
    "Cmm.Lex.C31_string",
    "Cmm.Lex.C31_accepted",
    "Cmm.Lex.C31_char"
   ],
   "note": "C31_string: stored text denotes the source bytes and the count is bytes + 1; C31_accepted: converse; C31_char"
  },
  {
   "property": "C32",
   "status": "partial",
   "theorems": [
    "Cmm.Lex.C32_overflow",
    "Cmm.Lex.C32_partial",
    "Cmm.Lex.C32_false"
   ],
   "note": "the property is false (C32_false: three witnesses); C32_overflow and C32_partial describe exactly the texts which overflow"
  },
  {
   "property": "C33",
   "status": "partial",
   "theorems": [
    "Cmm.Lex.C33_false",
    "Cmm.Lex.C33_partial",
    "Cmm.Lex.C33_printable_partial"
   ],
   "note": "the property is false (C33_false); C33_partial: exactly which bytes collide; C33_printable_partial: no printable character does"
  },
  {
   "property": "C34",
   "status": "proved",
   "theorems": [
    "Cmm.Parse.C34_lookup",
    "Cmm.Parse.C34_block",
    "Cmm.Parse.C34_function",
    "Cmm.Parse.C34_parser",
    "Cmm.Parse.C34_stat",
    "Cmm.Parse.C34_decl"
   ],
   "note": "C34_lookup: srcName equals lookup in nested scopes for every sequence of operations on the name table; C34_block, C34_function: leaving a block or function restores resolution; C34_parser: the table at every point of every accepted function is made by such a sequence; C34_stat, C34_decl for the parser functions"
  },
  {
   "property": "C35",
   "status": "proved",
   "theorems": [
    "Cmm.Parse.C35_table",
    "Cmm.Parse.C35",
    "Cmm.Parse.C35_globals"
   ],
   "note": "C35: tables at all points of accepted functions and at the end; C35_table: all tables made by the operations of namtbl.c in the parser's order (parameters before local variables); C35_globals: at the end all visible names are distinct"
  },
  {
   "property": "C36",
   "status": "proved",
   "theorems": [
    "Cmm.Parse.C36_round_trip",
    "Cmm.Parse.C36_minimal",
    "Cmm.Parse.C36_unambiguous"
   ],
   "note": "C36_round_trip: any well typed expression written with minimal (or more) parentheses by the manual's table is read as its tree. Trees range over expressions typed by the compiler's own rules (a superset of the manual's); C36_minimal says parentheses are only put where needed; C36_unambiguous follows."
  },
  {
   "property": "C37",
   "status": "partial",
   "theorems": [
    "Cmm.Parse.C37_accepted_partial",
    "Cmm.Parse.C37_exact_partial",
    "Cmm.Parse.C37_type_unique",
    "Cmm.Parse.C37_manual_partial",
    "Cmm.Parse.C37_arrays_false",
    "Cmm.Parse.C37_void_false",
    "Cmm.Parse.C37_typedef_false"
   ],
   "note": "The full claim is false of the code (C37_arrays_false, C37_void_false, C37_typedef_false). Proved: exact characterisation of what is accepted by the rules `actual`, and well-typedness by the manual's rules for expressions without ==/!= over tables without typedef names."
  },
  {
   "property": "C38",
   "status": "partial",
   "theorems": [
    "Cmm.Parse.C38",
    "Cmm.Parse.C38_exec",
    "Cmm.Parse.C38_body",
    "Cmm.Parse.C38_optimized_partial",
    "Cmm.Parse.C38_optimized_false"
   ],
   "note": "C38: proved of the tree the parser builds (break and continue only in loops; return values exactly where required; last statement of a valued function is a return); C38_exec, C38_body: execution consequences. C38_optimized_false: with the optimizer on, `do { break; } while (0)` leaves a bare break in the tree; C38_optimized_partial: holds when no do-while with constant condition contains such a jump"
  },
  {
   "property": "C39",
   "status": "proved",
   "theorems": [
    "Cmm.Parse.C39"
   ],
   "note": "for every point of every accepted function; every expression uses only variables visible together at one point"
  },
  {
   "property": "C40",
   "status": "partial",
   "theorems": [
    "Cmm.Opt.C40_partial",
    "Cmm.Opt.C40_false",
    "Cmm.Opt.C40_swap_false"
   ],
   "note": "False of the code for division chains (C40_false, C40_swap_false). C40_partial covers every side-effect free expression in which no dividend contains a division."
  },
  {
   "property": "C41",
   "status": "partial",
   "theorems": [
    "Cmm.Opt.C41_partial",
    "Cmm.Opt.C41_log",
    "Cmm.Opt.C41_false"
   ],
   "note": "False of the code (C41_false). C41_partial: same values, state and log of calls and assignments when an operation constantly equal to its annihilator has no effect; no division chains."
  },
  {
   "property": "C42",
   "status": "partial",
   "theorems": [
    "Cmm.Opt.C42_partial",
    "Cmm.Opt.C42_false"
   ],
   "note": "False of the code (C42_false). C42_partial: no error for expressions as in C41 whose divisors are not constantly 0 and whose shift widths are not constantly out of range."
  },
  {
   "property": "C43",
   "status": "partial",
   "theorems": [
    "Cmm.Opt.C43_partial",
    "Cmm.Opt.C43_false",
    "Cmm.Opt.C43_loop_false"
   ],
   "note": "False of the code (C43_false, C43_loop_false). C43_partial: same terminating executions for all statements whose expressions are as in C41 and in which do..while(false) bodies have no break/continue."
  },
  {
   "property": "C44",
   "status": "proved",
   "theorems": [
    "Cmm.Gen.C44_value",
    "Cmm.Gen.C44_diverges",
    "Cmm.Gen.C44_effect",
    "Cmm.Gen.C44_permitted",
    "Cmm.Gen.C44_pure_guarded",
    "Cmm.Gen.C44_pure",
    "Cmm.Gen.C44_ordered_guarded",
    "Cmm.Gen.C44_ordered"
   ],
   "note": "All well-formed trees (Wf: what the parser builds; boolean operands in value position are 0 or 1). An access or division the World calls undefined (World.ok) has no result; C44_value and C44_effect hold for every World.ok. Calls that do not return are covered by C44_diverges (worlds without undefined accesses: Total)."
  },
  {
   "property": "C45",
   "status": "proved",
   "theorems": [
    "Cmm.Gen.C45_order",
    "Cmm.Gen.C45_cond",
    "Cmm.Gen.C45_value",
    "Cmm.Gen.C45_unique",
    "Cmm.Gen.C45_exists"
   ],
   "note": "All nestings; specification by the list of evaluated terms."
  },
  {
   "property": "C46",
   "status": "proved",
   "theorems": [
    "Cmm.Gen.C46_statement",
    "Cmm.Gen.C46_function",
    "Cmm.Gen.C46_ordered_guarded",
    "Cmm.Gen.C46_ordered"
   ],
   "note": "All statements and whole functions, for every terminating execution, for every choice of undefined accesses (World.ok)."
  },
  {
   "property": "C47",
   "status": "proved",
   "theorems": [
    "Cmm.Gen.C47_function",
    "Cmm.Gen.C47_program",
    "Cmm.Gen.C47_deterministic"
   ],
   "note": "All functions and all sequences of functions and string constants."
  },
  {
   "property": "C48",
   "status": "proved",
   "theorems": [
    "Cmm.Gen.C48_inside",
    "Cmm.Gen.C48_distinct",
    "Cmm.Gen.C48_area",
    "Cmm.Gen.C48_count",
    "Cmm.Gen.C48_labels"
   ],
   "note": "All dimension lists, all index lists; embedded in any surrounding program."
  },
  {
   "property": "C49",
   "status": "proved",
   "theorems": [
    "Cmm.Tac.C49_books",
    "Cmm.Tac.C49_result"
   ],
   "note": "C49_books: for every instruction sequence that keeps the stack discipline Disc (an instruction using the top value follows its production, labels/jumps/macros may stand between), in every reachable state of vm2tac.c every accumulator is free or used by exactly one virtual-stack entry, accCnt is the number of busy ones and spilled entries lie below accumulator entries. C49_result: a function result is always described as G0, no other entry uses G0."
  },
  {
   "property": "C50",
   "status": "partial",
   "theorems": [
    "Cmm.Tac.C50_partial",
    "Cmm.Tac.C50_statement",
    "Cmm.Tac.C50_return",
    "Cmm.Tac.C50_lazy_false"
   ],
   "note": "False in general: C50_lazy_false (a - (a = 5): a variable is read after the store), C52_div_false, C53_overflow_false. C50_partial: for every instruction sequence without jumps and every start state, if no step meets one of these defects (Safe, stated per step) the emitted TaC lines lead to a machine state in which every virtual stack entry represents the value on the abstract stack, and memory, register variables, SP and hardware stack agree. C50_statement and C50_return: the same with conditions read off from the instructions (stores and calls have no value below their operands, no division, no comparison with the literal 0, references do not point into the hardware stack); includes calls, nested arguments, array accesses. Called functions are specified by CallOk. Missing: sequences with a defect-free store or call above pending values are only covered by C50_partial."
  },
  {
   "property": "C51",
   "status": "partial",
   "theorems": [
    "Cmm.Tac.C51_text",
    "Cmm.Tac.C51_exact",
    "Cmm.Tac.C51_partial",
    "Cmm.Tac.C51_converse",
    "Cmm.Tac.C51_straight",
    "Cmm.Tac.C51_skip_false",
    "Cmm.Tac.C51_drop_false"
   ],
   "note": "False in two ways: C51_skip_false ((x<y) == (b && f()): a word is popped that was not pushed) and C51_drop_false (x+y > (f(),0): a pushed word is never popped). C51_text: for every call sequence the printed lines push and pop as many words as there are spilled entries and arguments, up to left-out comparisons. C51_exact: SP after any path through the code differs from SP before by exactly the words pushed minus popped among the skipped lines (and the left-out comparisons). C51_partial, C51_straight: hence SP is restored on paths that skip no surplus, and in all code without jumps. C51_converse: otherwise it is not."
  },
  {
   "property": "C52",
   "status": "partial",
   "theorems": [
    "Cmm.Tac.C52_isPower2",
    "Cmm.Tac.C52_mul",
    "Cmm.Tac.C52_div_partial",
    "Cmm.Tac.C52_mod_partial",
    "Cmm.Tac.C52_div_false",
    "Cmm.Tac.C52_udiv_false",
    "Cmm.Tac.C52_vmMul",
    "Cmm.Tac.C52_vmDiv_partial",
    "Cmm.Tac.C52_vmMod_partial",
    "Cmm.Tac.C52_vmMul_left"
   ],
   "note": "Multiplication proved for every x and every recognised constant (C52_mul, C52_vmMul, C52_vmMul_left). For division and remainder the claim is false (C52_div_false, C52_udiv_false); C52_div_partial, C52_mod_partial, C52_vmDiv_partial, C52_vmMod_partial give the exact condition: x not negative or divisible by the constant."
  },
  {
   "property": "C53",
   "status": "partial",
   "theorems": [
    "Cmm.Tac.C53_neg",
    "Cmm.Tac.C53_swap",
    "Cmm.Tac.C53_jump",
    "Cmm.Tac.C53_boolJmp",
    "Cmm.Tac.C53_assigned_false",
    "Cmm.Tac.C53_compared_false",
    "Cmm.Tac.C53_overflow_false",
    "Cmm.Tac.C53_tested_partial"
   ],
   "note": "The conversion tables are right (C53_neg, C53_swap, C53_jump, C53_boolJmp). C53_tested_partial: JT and JF test the value on top of the stack if it is still in the flags, a CMP is printed, or the flags used belong to it; the stack code can be checked for this (fit). False otherwise: C53_assigned_false, C53_compared_false, C53_overflow_false."
  },
  {
   "property": "C54",
   "status": "proved",
   "theorems": [
    "Cmm.Tac.C54",
    "Cmm.Tac.C54_kernel",
    "Cmm.Tac.C54_interrupt"
   ],
   "note": "C54, C54_kernel, C54_interrupt: entry and exit code restore FP, SP and the register variables and return to the caller, for every depth and every body that keeps SP, FP and the saved words."
  },
  {
   "property": "C55",
   "status": "partial",
   "theorems": [
    "Cmm.CText.C55_expr_partial",
    "Cmm.CText.C55_stm_partial",
    "Cmm.CText.C55_fn_partial",
    "Cmm.CText.C55_proto_partial",
    "Cmm.CText.C55_inj_partial",
    "Cmm.CText.C55_dots_false",
    "Cmm.CText.C55_do_false",
    "Cmm.CText.C55_do_reads",
    "Cmm.CText.C55_minus_false",
    "Cmm.CText.C55_neg_false",
    "Cmm.CText.C55_name_false",
    "Cmm.CText.C55_empty_false",
    "Cmm.CText.C55_decl_false"
   ],
   "note": "Against C itself (tokens by longest match, grammars of expressions, statements and function definitions proved unambiguous): the text of every expression, statement, function and prototype is read in exactly one way, as the tree printed. False for do bodies without braces (C55_do_false, C55_do_reads), a minus sign before a negative constant (C55_minus_false, C55_neg_false), names that are C keywords (C55_name_false), an optimized-away if before else (C55_empty_false), a declaration as the body of if (C55_decl_false), `...` as the only parameter (C55_dots_false); the positive theorems exclude exactly these. Missing: runtime-check output (_RTC), genStruc, string tables."
  },
  {
   "property": "C56",
   "status": "proved",
   "theorems": [
    "Cmm.Opt.C56_range"
   ],
   "note": "All expressions."
  },
  {
   "property": "C57",
   "status": "proved",
   "theorems": [
    "Cmm.Gen.C57_data",
    "Cmm.Gen.C57_labels"
   ],
   "note": "All initialiser trees of the parser's shapes, nested to any depth."
  },
  {
   "property": "C58",
   "status": "proved",
   "theorems": [
    "Cmm.Stdio.C58",
    "Cmm.Stdio.C58_fprintf",
    "Cmm.Stdio.C58_printf"
   ],
   "note": "C58, C58_printf, C58_fprintf: whatever the format specifies (Fmt, as C19) is appended to what the stream has sent or holds, and its length is returned."
  },
  {
   "property": "C59",
   "status": "partial",
   "theorems": [
    "Cmm.Tac.C59",
    "Cmm.Tac.C59_end",
    "Cmm.Tac.C59_return",
    "Cmm.Tac.C59_labels",
    "Cmm.Tac.C59_only"
   ],
   "note": "C59: every run of the stack code of a function body with jumps is followed by the printed lines, line by line, if the code does not meet the defects of C50, C52, C53 (Fits, a check by running vm2tac on the code), references stay out of the hardware stack, and no negative number is divided by a power of two with a remainder (CfgOk). C59_end, C59_return: agreement after a statement and at a return. C59_labels: each label is on one line. C59_only: the lines have no other run. Missing: the macro instructions for && and || as values; callees are specified by CallOk and Keeps."
  },
  {
   "property": "C60",
   "status": "partial",
   "theorems": [
    "Cmm.Tac.C60_ret_unique",
    "Cmm.Tac.C60_ev_iff",
    "Cmm.Tac.C60",
    "Cmm.Tac.C60_det",
    "Cmm.Tac.C60_text",
    "Cmm.Tac.C60_definite"
   ],
   "note": "C60: for every program of functions calling each other (recursion included), if the stack code returns, the printed lines return with the same value and memory, and restore SP, FP, register variables and the stack of the caller. C60_ret_unique, C60_ev_iff: the specification is a function. C60_definite, C60_det, C60_text: labels and names are defined once and the machine has one run. Conditions as for C59 (Fits: a check by running vm2tac on the code excludes the defects of C50-C53); functions of the library are specified by ExtOk, __stkChk by ChkAt. Missing: interrupt functions, the macro instructions for && and || as values, programs that do not return."
  },
  {
   "property": "C61",
   "status": "partial",
   "theorems": [
    "Cmm.Tac.C61_ret_unique",
    "Cmm.Tac.C61_ev_iff",
    "Cmm.Tac.C61_stack_code",
    "Cmm.Tac.C61_partial",
    "Cmm.Tac.C61_order",
    "Cmm.Tac.C61_left_to_right_partial",
    "Cmm.Tac.C61_definite"
   ],
   "note": "C61_partial: end-to-end simulation from syntax trees through genFunc (vmCode.c) and vm2tac.c to the TaC machine with CALL and RET, in the order of evaluation of the code generator; C61_left_to_right_partial: for left-to-right evaluation, if exchanged operands have no side effects (C61_order). C61_stack_code: the stack code of a program returns what its trees return. C61_ret_unique, C61_ev_iff: the meaning of a program is a function. C61_definite: the text has one run. The stack discipline needed by C60 is proved for the code of every tree (Verif/Tac/Walk.lean), no longer assumed. Full claim (every program the parser accepts) is false by C50-C53; missing: && and || used as values, array elements read as a statement, programs excluded by Fits (a check by running vm2tac on the code), programs that do not return."
  },
  {
   "property": "C62",
   "status": "partial",
   "theorems": [
    "Cmm.Tac.C62_function",
    "Cmm.Tac.C62_partial",
    "Cmm.Tac.C62_correct_partial",
    "Cmm.Tac.C62_bound",
    "Cmm.Tac.C62_deep",
    "Cmm.Tac.C62_deep_false",
    "Cmm.Tac.C62_mul_false"
   ],
   "note": "Full statement (every well-formed program is translated) is false of the code: C62_deep_false (21 stack entries) and C62_mul_false (a product whose last operand is a comparison). C62_partial: every program of trees as the parser builds them, with && and || as conditions only, at most 20 entries and no such product is translated, ending with an empty virtual stack and free accumulators; entries are counted with the arguments already pushed, so long argument lists are counted too strictly. C62_correct_partial: C61 without the hypothesis that translation succeeds. C62_bound: the arrays of the virtual stack are never overrun, for all code that keeps the discipline. Missing: && and || as values, statements a[i]; that read an element without use, interrupt functions."
  },
  {
   "property": "C63",
   "status": "proved",
   "theorems": [
    "Cmm.Tac.C63_fits",
    "Cmm.Tac.C63_fitsAll",
    "Cmm.Tac.C63",
    "Cmm.Tac.C63_left_to_right",
    "Cmm.Tac.C63_pure",
    "Cmm.Tac.C63_false"
   ],
   "note": "C63: every program of trees that meet Sound (all of it decided on the tree: okS, frame size, at most 20 entries, mulS, fitS) is translated and its lines do what the trees mean. C63_left_to_right: the same for evaluation from left to right where exchanged operands are pure. C63_fits, C63_fitsAll: the tree condition fitS implies the condition of C59-C61 on the translation, whatever was translated before. C63_pure: expressions without calls and assignments need no condition on what is pending. C63_false: without fitS the claim is false ((a = 1) + (a = 2) returns 4). && and || as values, statements a[i]; and interrupt functions are outside of okS."
  },
  {
   "property": "C64",
   "status": "proved",
   "theorems": [
    "Cmm.Parse.C64_sound",
    "Cmm.Parse.C64_code",
    "Cmm.Parse.C64_once",
    "Cmm.Parse.C64_distinct",
    "Cmm.Parse.C64_args",
    "Cmm.Parse.C64",
    "Cmm.Parse.C64_left_to_right"
   ],
   "note": "C64 (genSw order) and C64_left_to_right; C64_sound is the parser's part, C64_code ties the compiled functions to genFunc on the parser's trees and table, C64_once/C64_distinct say that functions are unique, C64_args that calls pass as many arguments as the called function has parameters. -O0 only."
  },
  {
   "property": "C65",
   "status": "proved",
   "theorems": [
    "Cmm.Tac.C65_program",
    "Cmm.Tac.C65_lost_false",
    "Cmm.Parse.C65_prog",
    "Cmm.Parse.C65_sound",
    "Cmm.Parse.C65"
   ],
   "note": "C65 for accepted programs compiled with the optimiser, against the trees before it; C65_program is the refinement from the program written to the optimised one, C65_prog says that the compiled functions are the optimised ones, C65_sound that they meet the conditions of C63. C65_lost_false: without the condition mild the claim is false ((total = 5) * 0 loses the assignment). An operand that is never evaluated and dropped (0 && f()) is harmless but also excluded."
  },
  {
   "property": "C66",
   "status": "proved",
   "theorems": [
    "Cmm.Tac.C66_lines",
    "Cmm.Tac.C66_text",
    "Cmm.Parse.C66_writable",
    "Cmm.Parse.C66",
    "Cmm.Parse.C66_writable_opt",
    "Cmm.Parse.C66_optimised",
    "Cmm.Parse.C66_label_false",
    "Cmm.Parse.C66_stkChk_false"
   ],
   "note": "C66 (-O0) and C66_optimised; C66_text is the round trip for any program meeting C63 (text exists, and is read as exactly the lines), C66_lines that registers and jumps exist and names stand before instructions, C66_writable(_opt) that accepted programs use names of their table only. C66_label_false, C66_stkChk_false: without the condition on names no reader can be right. Data directives are not part of the text here."
  },
  {
   "property": "C67",
   "status": "proved",
   "theorems": [
    "Cmm.Parse.C67_tokens",
    "Cmm.Parse.C67_layout",
    "Cmm.Parse.C67_names",
    "Cmm.Parse.C67",
    "Cmm.Parse.C67_optimised",
    "Cmm.Parse.C67_byte_false"
   ],
   "note": "C67 (-O0) and C67_optimised from bytes; C67_tokens: the parser gets the tokens of the lexemes with their own values; C67_layout: gaps do not matter; C67_names: names of the table are names of the text. C67_byte_false: without the condition on the byte 202 names may have any characters. The conditions on the program other than on its text are those of C64 to C66."
  },
  {
   "property": "C68",
   "status": "partial",
   "theorems": [
    "Cmm.Tac.C68_det",
    "Cmm.Tac.C68_trees",
    "Cmm.Parse.C68",
    "Cmm.Parse.C68_optimised",
    "Cmm.Parse.C68_label_false"
   ],
   "note": "Partial: && and || as values, interrupt functions and data directives are outside, and quotients are those for which vm2tac is right (okDiv, as in C61). Optimised programs need the conditions of C65. C68_label_false: private names like L5 are ambiguous in the text."
  },
  {
   "property": "C69",
   "status": "proved",
   "theorems": [
    "Cmm.Parse.C69_vm",
    "Cmm.Parse.C69_tac",
    "Cmm.Parse.C69_bss",
    "Cmm.Parse.C69_string",
    "Cmm.Parse.C69_addr_false"
   ],
   "note": "bytes of the source to bytes of the data directives; for vm2tac.c the claim excludes initial values with addrof, where it is false (C69_addr_false)"
  },
  {
   "property": "C70",
   "status": "proved",
   "theorems": [
    "Cmm.Parse.C70",
    "Cmm.Parse.C70_accepted",
    "Cmm.Parse.C70_unambiguous",
    "Cmm.Parse.C70_constant",
    "Cmm.Parse.C70_number",
    "Cmm.Parse.C70_variable",
    "Cmm.Parse.C70_constant_false"
   ],
   "note": "soundness and completeness of getInit against the grammar Says; the value of a number is that of the expression if the optimiser removes no call and no assignment (mildE), without this it is false (C70_constant_false)"
  },
  {
   "property": "C71",
   "status": "partial",
   "theorems": [
    "Cmm.Parse.C71",
    "Cmm.Parse.C71_twice_partial",
    "Cmm.Parse.C71_function",
    "Cmm.Parse.C71_twice_false"
   ],
   "note": "Proved: the definitions handed to the code generator are exactly those the final name table calls for, in kind, number and order; a function exactly once. That no name is defined twice is refuted (room and then value of the same variable) and proved with that exception."
  },
  {
   "property": "C72",
   "status": "proved",
   "theorems": [
    "Cmm.Parse.C72",
    "Cmm.Parse.C72_accepted",
    "Cmm.Parse.C72_closed",
    "Cmm.Parse.C72_block",
    "Cmm.Parse.C72_unambiguous",
    "Cmm.Parse.C72_else"
   ],
   "note": "Grammar of statements and local declarations (Verif/Parse/StatSyn.lean: Syn, LocalDecl, Cond, ForIni, ...), independent of the parser functions; C72 is an equivalence for getStat, C72_block for getBlock, C72_unambiguous and C72_else follow. Expressions inside are those of the grammar of C36 (Ty, SX.At)."
  },
  {
   "property": "C73",
   "status": "proved",
   "theorems": [
    "Cmm.Parse.C73",
    "Cmm.Parse.C73_rejected",
    "Cmm.Parse.C73_declaration",
    "Cmm.Parse.C73_split",
    "Cmm.Parse.C73_unambiguous"
   ],
   "note": "Grammar of programs (Verif/Parse/ProgSyn.lean: Prog, Decln, Func, Sig, Prms, GVar, GVars, Lines, Flds), independent of the parser functions; C73 is an equivalence for getSrc from the initial state, C73_declaration for getProg, C73_rejected, C73_split and C73_unambiguous follow. A text that is rejected gives none in the model, which covers error() and would cover non-termination; the pointers recorded for the model only (pts) are not part of the claim."
  },
  {
   "property": "C74",
   "status": "partial",
   "theorems": [
    "Cmm.Tac.C74",
    "Cmm.Tac.C74_parts",
    "Cmm.Tac.C74_determined",
    "Cmm.Tac.C74_newline_false",
    "Cmm.Tac.C74_code",
    "Cmm.Tac.C74_agree",
    "Cmm.Tac.C74_trees",
    "Cmm.Parse.C74_program",
    "Cmm.Parse.C74_optimised",
    "Cmm.Parse.C74_data",
    "Cmm.Parse.C74_string",
    "Cmm.Parse.C74_index_false"
   ],
   "note": "Proved: round trip for all sequences of calls, agreement with vm2vm.c, meaning of accepted programs with and without the optimiser under the conditions of C68 (&& and || in conditions only), data and strings. The code has one number for each name; vm2ic.c prints indices, and that an index belongs to one name is refuted (C74_index_false). A string with a newline could not be read back (C74_newline_false); the lexer makes none."
  },
  {
   "property": "C75",
   "status": "partial",
   "theorems": [
    "Cmm.CText.C75_tree",
    "Cmm.CText.C75_partial",
    "Cmm.CText.C75_accepted",
    "Cmm.CText.C75_constant",
    "Cmm.CText.C75_stops",
    "Cmm.CText.C75_addr_false",
    "Cmm.CText.C75_void_false"
   ],
   "note": "All accepted initial values without addrof and of types other than void; for addrof and void[] the property is false (C75_addr_false, C75_void_false, C75_stops). Without _RTC."
  },
  {
   "property": "C76",
   "status": "partial",
   "theorems": [
    "Cmm.CText.C76_tree",
    "Cmm.CText.C76_statement_partial",
    "Cmm.CText.C76_index",
    "Cmm.CText.C76_function_partial",
    "Cmm.CText.C76_between",
    "Cmm.CText.C76_text_partial",
    "Cmm.CText.C76_false",
    "Cmm.CText.C76_redeclared_false",
    "Cmm.CText.C76_string_false"
   ],
   "note": "All statements and functions of the grammar except those with a block that is a single declaration without value, and names of the form of string labels; for these the property is false (C76_false, C76_redeclared_false, C76_string_false). The tree before the optimiser. sizeof is a number in the trees of the parser model."
  },
  {
   "property": "C77",
   "status": "partial",
   "theorems": [
    "Cmm.CText.C77_expression_partial",
    "Cmm.CText.C77_assign_partial",
    "Cmm.CText.C77_text_partial",
    "Cmm.CText.C77_statement_partial",
    "Cmm.CText.C77_function_partial",
    "Cmm.CText.C77_function_text_partial",
    "Cmm.CText.C77_voids_false",
    "Cmm.CText.C77_compare_false",
    "Cmm.CText.C77_void_false",
    "Cmm.CText.C77_null_false"
   ],
   "note": "Programs well typed by the manual (C37), without arrays of more than one dimension of void and without null behind a comma; each restriction is shown to be necessary (C77_voids_false, C77_compare_false, C77_void_false, C77_null_false). The tree before the optimiser; structure declarations and initial values of globals (C75) are not part of it."
  },
  {
   "property": "C78",
   "status": "partial",
   "theorems": [
    "Cmm.CText.C78_file_partial",
    "Cmm.CText.C78_names_partial",
    "Cmm.CText.C78_text_partial",
    "Cmm.CText.C78_text_file_partial",
    "Cmm.CText.C78_program_partial",
    "Cmm.CText.C78_typedef_false"
   ],
   "note": "Typedef left out (false: C78_typedef_false), interrupt functions left out (rejected by the translator); limits of C77 (rules of the manual, no void[][], no null behind a comma). The theorems on the text leave out values of variables (C75); C78_program_partial asks of the source that names are identifiers of C, and of the text only what is false without (do, ...)."
  },
  {
   "property": "C79",
   "status": "partial",
   "theorems": [
    "Cmm.CText.C79_run",
    "Cmm.CText.C79",
    "Cmm.CText.C79_file",
    "Cmm.CText.C79_ends",
    "Cmm.CText.C79_header_partial",
    "Cmm.CText.C79_header_false",
    "Cmm.CText.C79_same"
   ],
   "note": "All trees of included files (C79, C79_run, C79_file), strEndsWith (C79_ends). The printed header is the one of the source only directly in cmmInclude (C79_header_partial); false for directories below (C79_header_false, C79_same). Strings and values of variables are not in it."
  },
  {
   "property": "C80",
   "status": "proved",
   "theorems": [
    "Cmm.CText.C80_label",
    "Cmm.CText.C80_macros",
    "Cmm.CText.C80_once",
    "Cmm.CText.C80_expr",
    "Cmm.CText.C80_statement",
    "Cmm.CText.C80_function",
    "Cmm.CText.C80_others",
    "Cmm.CText.C80_name_false"
   ],
   "note": "Expressions, statements and functions (C80_expr, C80_statement, C80_function) for all that was printed before; macros are read in one way (C80_macros), defined once (C80_once, C80_label), nothing else is replaced (C80_others). Without the optimiser, with names unlike labels (C80_name_false shows why); strings in values of global variables are not covered."
  },
  {
   "property": "C81",
   "status": "partial",
   "theorems": [
    "Cmm.Lex.C81",
    "Cmm.Lex.C81_usage",
    "Cmm.Lex.C81_order_false",
    "Cmm.Lex.C81_name_partial",
    "Cmm.Lex.C81_name_false",
    "Cmm.Lex.C81_directive"
   ],
   "note": "C81 and C81_usage: all lists of arguments. C81_order_false: other orders are refused. C81_name_partial and C81_directive: names of at most StrMAX bytes; C81_name_false: longer ones."
  },
  {
   "property": "C82",
   "status": "partial",
   "theorems": [
    "Cmm.Stdio.C82",
    "Cmm.Stdio.C82_fopen",
    "Cmm.Stdio.C82_refused",
    "Cmm.Stdio.C82_total",
    "Cmm.Stdio.C82_output",
    "Cmm.Stdio.C82_output_total",
    "Cmm.Stdio.C82_error_false"
   ],
   "note": "C82, C82_fopen, C82_total: input with seeks, all sequences. C82_output, C82_output_total: output without errors. C82_refused: seeks the system refuses. C82_error_false: an error of the flush before the seek is not reported. The console is not covered."
  },
  {
   "property": "C83",
   "status": "partial",
   "theorems": [
    "Cmm.Stdio.C83",
    "Cmm.Stdio.C83_unique",
    "Cmm.Stdio.C83_again_false",
    "Cmm.Stdio.C83_short_false"
   ],
   "note": "C83, C83_unique: all directories read in entries of 32 bytes. C83_again_false: a call after the end mark lists what is behind it. C83_short_false: a short read uses old bytes."
  },
  {
   "property": "C84",
   "status": "partial",
   "theorems": [
    "Cmm.CLib.C84_unsigned_partial",
    "Cmm.CLib.C84_unsigned_false",
    "Cmm.CLib.C84_digits",
    "Cmm.CLib.C84_unsigned_negative",
    "Cmm.CLib.C84_signed",
    "Cmm.CLib.C84_min_false",
    "Cmm.CLib.C84_long_partial",
    "Cmm.CLib.C84_long_false",
    "Cmm.CLib.C84_count_false",
    "Cmm.CLib.C84_seek_partial",
    "Cmm.CLib.C84_seek_false"
   ],
   "note": "C84_unsigned_negative: the exact text for the other ints. C84_unsigned_partial, C84_digits, C84_signed, C84_long_partial, C84_seek_partial: where the claim holds. C84_unsigned_false, C84_min_false, C84_long_false, C84_count_false, C84_seek_false: where it does not."
  },
  {
   "property": "C85",
   "status": "proved",
   "theorems": [
    "Cmm.WrapSys.C85",
    "Cmm.WrapSys.C85_leak",
    "Cmm.WrapSys.C85_long_false"
   ],
   "note": "All seven wrappers of wrap-syslib.cmm over absPath (C24): one call with the canonical path and the arguments as given, or an error and no call; C85_leak: the buffer is freed once. Conditions as in C24 with a buffer of 80 bytes, which cMalloc gives and which is not null; malloc and free are events. C85_long_false: the length is checked before the path is made canonical."
  },
  {
   "property": "C86",
   "status": "partial",
   "theorems": [
    "Cmm.CLib.C86_partial",
    "Cmm.CLib.C86_bad",
    "Cmm.CLib.C86_bad_long",
    "Cmm.CLib.C86_formats",
    "Cmm.CLib.C86_left_false"
   ],
   "note": "Formats as lists of pieces: C86_partial (all conversions, widths, sides), C86_bad and C86_bad_long (invalid or unfinished conversions), C86_formats (these cover all formats). Missing: %o and %x from 2^31 on, %d of the smallest int and %-ld, for which the claim is false (C84_unsigned_false, C84_min_false, C86_left_false)."
  },
  {
   "property": "C87",
   "status": "proved",
   "theorems": [
    "Cmm.CLib.C87",
    "Cmm.CLib.C87_htoi",
    "Cmm.CLib.C87_round",
    "Cmm.CLib.C87_overflow_false"
   ],
   "note": "C87: main with run-time checks for all arguments and environments, without access outside of allocated memory; C87_htoi: the value or the overflow for every text; C87_round: %x and htoi. C87_overflow_false: eight digits from 80000000 on overflow."
  },
  {
   "property": "C88",
   "status": "partial",
   "theorems": [
    "Cmm.CLib.C88_partial",
    "Cmm.CLib.C88_null",
    "Cmm.CLib.C88_size_false",
    "Cmm.CLib.C88_negative_false"
   ],
   "note": "C88_partial: arrays whose size is an int are safe; C88_null. Missing: larger and negative lengths, for which the claim is false (C88_size_false, C88_negative_false)."
  },
  {
   "property": "C89",
   "status": "partial",
   "theorems": [
    "Cmm.CLib.C89_path_partial",
    "Cmm.CLib.C89_path_false",
    "Cmm.CLib.C89_getenv",
    "Cmm.CLib.C89_stale_false",
    "Cmm.CLib.C89_feof",
    "Cmm.CLib.C89_loop"
   ],
   "note": "C89_path_partial, C89_getenv, C89_feof, C89_loop. Missing: absPath of paths that do not fit, for which the claim is false (C89_path_false). C89_stale_false: how long a string of getenv stays."
  }
 ]
}
