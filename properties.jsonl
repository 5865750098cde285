{"id": "C01", "title": "Character classification and case conversion agree with the manual for every char", "statement": "isDigit, isXdigit, isUpper, isLower, isAlpha, isAlnum, isSpace and isPrint return true exactly for the characters the manual lists, and toUpper/toLower change exactly the letters of the other case and leave every other character alone; each pair of conversions is a projection (applying it twice equals applying it once) and round-trips on letters.", "quantifier": "all 256 values of the unsigned 8-bit char type", "why_tests_cant": "A unit test samples a few characters; the claim is about every code including the non-ASCII half where signed/unsigned char mistakes hide.", "anchors": ["lib/SrcCmm/ctype.cmm: isSpace isDigit isXdigit isPrint isLower isUpper isAlpha isAlnum toLower toUpper"]}
{"id": "C02", "title": "strLen / strCpy / strCat / strNcat build the concatenation the caller asked for and touch nothing else", "statement": "For NUL-terminated strings whose destination area does not overlap the source, strLen returns the number of bytes before the NUL; after strCpy(d,s) the memory at d holds exactly s and its NUL; after strCat(d,s) it holds d followed by s; after strNcat(d,s,n) it holds d followed by the first n-1 bytes of s; every byte outside the written range is unchanged and d is returned.", "quantifier": "all memories, all addresses, all string contents and lengths that fit the 16-bit address space, all n", "why_tests_cant": "Needs every memory content, every length and the frame condition on every other address.", "anchors": ["lib/SrcCmm/string.cmm: strLen strCpy strCat strNcat"]}
{"id": "C03", "title": "strNcpy never writes outside the first n bytes and always terminates", "statement": "strNcpy(d,s,n) with n>=1 writes exactly the bytes d[0..n-1]: the longest prefix of s of at most n-1 bytes followed by NUL padding; in particular the result is always NUL-terminated and no byte outside d[0..n-1] changes.", "quantifier": "all memories, source strings, destinations and n", "why_tests_cant": "A buffer-overrun claim ranges over all lengths on both sides of n and over all addresses outside the buffer.", "anchors": ["lib/SrcCmm/string.cmm: strNcpy", "doc/chap4.tex: strNcpy"]}
{"id": "C04", "title": "strCmp / strNcmp decide lexicographic order of unsigned bytes", "statement": "strCmp(a,b) is negative, zero or positive exactly as a is before, equal to or after b in the lexicographic order of unsigned byte strings (hence antisymmetric and transitive); strNcmp compares the first n bytes in the same order and never reads beyond byte n-1 or the terminating NUL.", "quantifier": "all pairs of NUL-terminated strings and all n", "why_tests_cant": "Order laws quantify over all pairs and triples of strings.", "anchors": ["lib/SrcCmm/string.cmm: strCmp strNcmp"]}
{"id": "C05", "title": "strChr / strRchr find the first / last occurrence", "statement": "strChr(s,c) returns the least index of c in s and strRchr(s,c) the greatest, and both return -1 exactly when c does not occur.", "quantifier": "all strings shorter than 32768 bytes and all non-NUL characters", "why_tests_cant": "Universally quantified extremality of an index cannot be sampled.", "anchors": ["lib/SrcCmm/string.cmm: strChr strRchr"]}
{"id": "C06", "title": "strStr returns the first occurrence of a substring", "statement": "strStr(s1,s2) returns the least index at which s2 occurs in s1 and -1 only when s2 does not occur. (The manual says so; the code misses an occurrence that ends exactly at the end of s1.)", "quantifier": "all pairs of NUL-terminated strings", "why_tests_cant": "The suffix case is one of unboundedly many positions; a proof or a refutation is needed to settle the claim.", "anchors": ["lib/SrcCmm/string.cmm: strStr", "doc/chap4.tex: strStr"]}
{"id": "C07", "title": "malloc hands out blocks that are disjoint, large enough and inside the heap, whatever the history", "statement": "After any sequence of malloc and free calls that does not end the program, all blocks that have been returned and not yet freed are pairwise disjoint, lie inside the heap, hold at least the requested number of bytes, are even-aligned, and overlap neither the allocator's headers nor any free block; a malloc or free never changes the bytes of another live block.", "quantifier": "all histories of malloc/free calls with arbitrary sizes below 65532-ish (no size overflow), all heap sizes, all contents", "why_tests_cant": "Fragmentation patterns grow without bound with the history; tests see only a few of them.", "anchors": ["lib/SrcTac/stdlib.cmm: malloc free _stdlibInit MemBlk"]}
{"id": "C08", "title": "free gives memory back completely: adjacent free blocks are always merged", "statement": "In every reachable heap the free list is sorted by address and no two free blocks are adjacent; when every block has been freed the heap is again the single initial free block.", "quantifier": "all malloc/free histories", "why_tests_cant": "Leak freedom and full coalescing are statements about every interleaving of frees.", "anchors": ["lib/SrcTac/stdlib.cmm: free"]}
{"id": "C09", "title": "free rejects a second free of the same block", "statement": "If a block is freed and free is called again with the same reference before another malloc, the program is terminated with EUBADA and the heap is not damaged.", "quantifier": "all reachable heaps and all live blocks", "why_tests_cant": "Depends on which neighbours happened to be free; all coalescing cases must be covered.", "anchors": ["lib/SrcTac/stdlib.cmm: free MAGIC"]}
{"id": "C10", "title": "malloc of a too large size never succeeds", "statement": "For every requested size, malloc either returns a block of at least that many bytes or terminates the program with EUNOMEM. (False in the code: the 16-bit size computation wraps for sizes above 65530 and a corrupted heap results.)", "quantifier": "all 16-bit sizes and all heaps", "why_tests_cant": "The wrap-around only shows for 5 of 65536 sizes.", "anchors": ["lib/SrcTac/stdlib.cmm: malloc"]}
{"id": "C11", "title": "calloc returns zeroed memory", "statement": "calloc(n,s) returns a block of n*s bytes all of which are zero. (False in the code when n*s overflows 16 bits or is at least 32768 because the loop compares signed.)", "quantifier": "all n, s, all previous heap contents", "why_tests_cant": "Needs all products including those that overflow.", "anchors": ["lib/SrcTac/stdlib.cmm: calloc"]}
{"id": "C12", "title": "atoi and htoi invert decimal and hexadecimal notation", "statement": "For a string of decimal digits atoi returns the denoted number modulo 65536, and for hexadecimal digits (either case) followed by a non-hex character htoi does the same; characters that are not digits are ignored by atoi.", "quantifier": "all strings", "why_tests_cant": "Unbounded strings and modular wrap-around.", "anchors": ["lib/SrcTac/stdlib.cmm: atoi htoi"]}
{"id": "C13", "title": "rand cycles through all 65535 non-zero values", "statement": "Starting from any state that srand can establish, rand never returns 0 and its period is exactly 65535: every non-zero 16-bit value is produced once per cycle; srand(0) behaves as srand(1).", "quantifier": "all seeds and all numbers of calls", "why_tests_cant": "Maximal period is a statement about all 65535 steps from every seed.", "anchors": ["lib/SrcTac/stdlib.cmm: srand rand lfsr"]}
{"id": "C14", "title": "_add32 / _sub32 / _mul32 are exact 32-bit arithmetic", "statement": "On the two-word representation (high word first) _add32 and _sub32 compute the sum and difference modulo 2^32, and _mul32 stores the exact 32-bit product of the low word of dst and src; each returns dst and leaves src and all other memory unchanged.", "quantifier": "all 32-bit operands", "why_tests_cant": "2^64 operand pairs; carry chains.", "anchors": ["lib/SrcTac/crt0.s: __add32 __sub32 __mul32"]}
{"id": "C15", "title": "_div32 / _mod32 divide 32-bit numbers", "statement": "_div32(dst,src) replaces dst by the quotient and _mod32(dst,src) returns the remainder, for every 32-bit dividend and non-zero divisor. (False in general in the code: the quotient is truncated to 16 bits, the high word receives the remainder, and large divisors or dividends give wrong results; true when the high word is below the divisor and the divisor is at most 32768.)", "quantifier": "all 32-bit dividends and 16-bit divisors", "why_tests_cant": "Restoring division must be checked for every operand pair.", "anchors": ["lib/SrcTac/crt0.s: __div32 __mod32", "doc/chap4.tex: _div32 _mod32"]}
{"id": "C16", "title": "_uCmp / _aCmp compare as unsigned numbers", "statement": "_uCmp and _aCmp return 1, 0 or -1 exactly as the first argument is above, equal to or below the second as unsigned 16-bit numbers.", "quantifier": "all pairs of 16-bit words", "why_tests_cant": "2^32 pairs, sign-bit cases.", "anchors": ["lib/SrcTac/crt0.s: __uCmp __aCmp"]}
{"id": "C17", "title": "printf number conversions print the right digits in the right width", "statement": "%d, %o and %x print the standard notation of the argument (signed decimal, unsigned octal, unsigned hexadecimal), padded to the requested width on the requested side with blanks or leading zeros, never truncating; reading the digits back gives the argument.", "quantifier": "all 16-bit arguments, all widths, both alignments, both pad characters", "why_tests_cant": "65536 arguments times all widths; INT_MIN and unsigned division are classic corner cases.", "anchors": ["lib/SrcTac/printf.cmm: putNum numLen uPutNum sPutNum conv16"]}
{"id": "C18", "title": "printf %ld prints any 32-bit unsigned number", "statement": "printf(\"%ld\",a) prints the unsigned decimal value of the 32-bit number held in a. (False in the code for values of 655360000 and above, with left justification, and the argument array is overwritten.)", "quantifier": "all 32-bit values, widths and alignments", "why_tests_cant": "2^32 values.", "anchors": ["lib/SrcTac/printf.cmm: conv32", "lib/SrcTac/crt0.s: __div32 __mod32"]}
{"id": "C19", "title": "printf consumes arguments in order, copies ordinary text and returns the number of characters written", "statement": "For every format string made of ordinary characters and valid conversions, the output is the concatenation of the ordinary characters and of the conversions applied to successive arguments, and the result is the number of characters successfully written; a format with an invalid conversion ends the program with EUFMT.", "quantifier": "all format strings and argument lists", "why_tests_cant": "Format strings are unbounded.", "anchors": ["lib/SrcTac/printf.cmm: print conv16 putC"]}
{"id": "C20", "title": "Buffered output delivers exactly the bytes written, in order, exactly once", "statement": "For every sequence of fputc/fputs/fflush calls on an output stream on which the system never reports an error, the bytes delivered to the file so far followed by the bytes still buffered equal the bytes written; after fflush, fclose or exit nothing is left behind; the buffer index never exceeds the buffer size.", "quantifier": "all operation sequences, all data, all buffer sizes", "why_tests_cant": "Buffer boundaries interact with the history of calls.", "anchors": ["lib/SrcTac/stdio.cmm: fputc fflush fputs _flushAll fclose"]}
{"id": "C21", "title": "Buffered input delivers exactly the bytes of the file, in order, and EOF exactly at the end", "statement": "For every way the system splits a file into read results, fgetc after a false feof returns the next byte of the file, feof becomes true exactly when all bytes have been consumed, fgets returns the next line cut at n-1 bytes and never writes beyond str[n-1], and the read index never passes the number of valid bytes.", "quantifier": "all file contents, all splittings into reads, all call sequences", "why_tests_cant": "Short reads and buffer refills make the number of cases unbounded.", "anchors": ["lib/SrcTac/stdio.cmm: fillBuf feof fgetc fgets"]}
{"id": "C22", "title": "Open streams occupy distinct slots and stale streams are rejected", "statement": "After any sequence of fopen/fclose, every open stream is registered in exactly the slot recorded in it, slots 0..2 always hold the standard streams, at most 5 files are open, and any call with a stream that is not open ends the program instead of touching memory.", "quantifier": "all fopen/fclose histories", "why_tests_cant": "Slot reuse depends on the full history.", "anchors": ["lib/SrcTac/stdio.cmm: allocFile srchSlot chkFp fclose"]}
{"id": "C23", "title": "Environment variables behave as a finite map", "statement": "After any sequence of setEnv(...,true)/putEnv/unsetEnv, getEnv(name) returns the value most recently set and not removed since, or null; other names are unaffected; setEnv with overwrite=false leaves an existing variable alone. (The last clause is false in the code: overwrite is ignored.)", "quantifier": "all histories and all names and values", "why_tests_cant": "Map laws over all histories.", "anchors": ["lib/SrcTac/environ.cmm: envIndex getEnv setNEnv setEnv putEnv unsetEnv reallocEnv makeEnvStr"]}
{"id": "C24", "title": "absPath yields the canonical absolute path", "statement": "The path computed by absPath starts with '/', has no empty, '.' or '..' component and no trailing slash (except the root itself), and denotes the directory obtained by walking the components of the input one by one ('..' at the root stays at the root); it is a fixed point of the normalisation.", "quantifier": "all path strings and working directories that fit the buffer", "why_tests_cant": "Path strings are unbounded and three in-place passes interact.", "anchors": ["lib/SrcTac/environ.cmm: delDotDir oneSlash delDotDotDir absPath"]}
{"id": "C25", "title": "absPath never writes beyond the caller's buffer", "statement": "Whatever the path and the working directory, absPath writes only to buf[0..bufSiz-1], reporting EINVAL when the result does not fit.", "quantifier": "all path strings, working directories and buffer sizes", "why_tests_cant": "Length arithmetic at all boundaries.", "anchors": ["lib/SrcTac/environ.cmm: absPath"]}
{"id": "C26", "title": "Library error reporting indexes its message table safely and names the right error", "statement": "_perror never reads outside errList for any error number, and each error the library itself raises prints the message of that error. (False for stack overflow: the start-up code exits with -25, which is 'Memory violation', instead of EUSTK = -26.)", "quantifier": "all 16-bit error numbers", "why_tests_cant": "All 65536 values; the mismatch is between an assembly literal and a header.", "anchors": ["lib/SrcTac/stdio.cmm: _perror errList", "include/errno.hmm", "lib/SrcTac/crt0.s: __stkChk .stkOverFlow"]}
{"id": "C27", "title": "White space and comments between tokens do not change the program", "statement": "Inserting or removing blanks, newlines and complete comments between tokens leaves the token sequence unchanged, and the lexer terminates on every input.", "quantifier": "all source texts", "why_tests_cant": "Unbounded texts; comment terminators such as /*/ and /**/ are corner cases.", "anchors": ["src/lexer.c: lxGetTok skipSpace skipSpc skipCom skipToEol getCh"]}
{"id": "C28", "title": "Integer literals denote their value", "statement": "A decimal, octal or hexadecimal literal whose value fits a C int is lexed as one integer token with that value, whatever follows it.", "quantifier": "all digit strings with value below 2^31 and all continuations", "why_tests_cant": "Unbounded digit strings in three bases.", "anchors": ["src/lexer.c: getDigit getDec getHex getOct hex"]}
{"id": "C29", "title": "Names and reserved words are recognised exactly", "statement": "A maximal run of letters, digits and underscores starting with a letter or underscore (at most 128 characters) is lexed as one token: a reserved word iff it is in the reserved-word table, true/false as logical constants, and otherwise a name carrying exactly that spelling.", "quantifier": "all identifiers and all continuations", "why_tests_cant": "Unbounded identifiers, prefixes of reserved words.", "anchors": ["src/lexer.c: getWord lxGetTok keywords", "src/util.c: isDelim"]}
{"id": "C30", "title": "Operators follow the longest-match rule", "statement": "Whenever the input starts with an operator, the token returned is the longest operator of the language that is a prefix of the input.", "quantifier": "all inputs", "why_tests_cant": "All combinations of operator characters and continuations.", "anchors": ["src/lexer.c: getSign"]}
{"id": "C31", "title": "String and character literals keep their bytes", "statement": "The text stored for a string literal, when decoded by the target assembler / C compiler, denotes exactly the byte sequence written in the source (with \\x.. and octal escapes rewritten as three-digit octal), and the recorded length is the number of bytes plus one.", "quantifier": "all string literals whose stored form fits the 128-character buffer", "why_tests_cant": "Escape sequences followed by digits are ambiguous unless rewritten correctly; all continuations matter.", "anchors": ["src/lexer.c: getStr putOctStr getHexStr getOctStr getEsc getChar"]}
{"id": "C32", "title": "The lexer never writes outside its token buffer", "statement": "For every input the lexer either stays within its StrMAX+1 byte buffer or stops with an error. (False in the code: a 129-character name, string or #-line file name writes one byte past the end.)", "quantifier": "all inputs", "why_tests_cant": "Memory safety over all inputs.", "anchors": ["src/lexer.c: getWord getStr getSharp putOctStr str"]}
{"id": "C33", "title": "Every token code is produced only by its own lexeme", "statement": "The token returned for an input byte that starts no literal, name or operator is never the code of a reserved word, literal or name. (False in the code for control bytes and bytes 200..205, which alias token codes.)", "quantifier": "all input bytes and positions", "why_tests_cant": "All 256 bytes in every context.", "anchors": ["src/lexer.c: getSign", "src/lexer.h"]}
{"id": "C34", "title": "A name resolves to the innermost visible declaration", "statement": "After any sequence of declarations, block entries and exits, and function ends, looking up a name yields the most recent visible declaration of that name, local names disappear at the end of their block, and everything that was visible before a block is visible again after it.", "quantifier": "all sequences of scope operations", "why_tests_cant": "Scoping is a property of all histories.", "anchors": ["src/namtbl.c: ntSrcName ntDefName ntSetVoid ntUndefName ntChkName", "src/parser.c: getBlock getFunc"]}
{"id": "C35", "title": "No two visible names of the same kind collide", "statement": "In every reachable name table, no two visible local names (variables or parameters) are equal, no structure name equals another visible global name, and field names are distinct within a structure; the table never exceeds its capacity.", "quantifier": "all sequences of definitions accepted by the compiler", "why_tests_cant": "Invariant over all histories.", "anchors": ["src/namtbl.c: ntChkName ntDefName NtMAX"]}
{"id": "C36", "title": "Operator precedence and associativity are those of the manual", "statement": "Every expression tree, written with the minimal parentheses the manual's precedence table requires (or with any superset of them), is parsed back to the same tree.", "quantifier": "all expression trees", "why_tests_cant": "Trees are unbounded; each pair of operators on each side matters.", "anchors": ["src/parser.c: getExpr getAsExpr getLogOrExpr getLogAndExpr getOrExpr getXorExpr getAndExpr getEquExpr getCmpExpr getSftExpr getAddExpr getMulExpr getUniExpr getFactor"]}
{"id": "C37", "title": "Accepted expressions are well typed", "statement": "Whenever the parser accepts an expression, the expression is well typed in the language's type system (operands of arithmetic are integers after the implicit char-to-int conversion, conditions are boolean, both sides of an assignment have the same type up to void[] and null, only variables, elements and fields are assigned to), and the type it computes is the type of the expression.", "quantifier": "all token sequences and name tables", "why_tests_cant": "Soundness of a type checker quantifies over all programs.", "anchors": ["src/parser.c: autoCast chkType chkCmpat getUniExpr cal2 getAsExpr getIdxOP getDotOP getArgs"]}
{"id": "C38", "title": "break and continue only occur inside loops; functions returning a value end in return", "statement": "In every accepted function body each break and continue is inside a loop of that function, and a non-void function's last statement is a return with a value.", "quantifier": "all programs", "why_tests_cant": "All nestings.", "anchors": ["src/parser.c: getBreak getCont getStat getFunc getReturn"]}
{"id": "C39", "title": "Local variables that are live at the same time have different slots", "statement": "At every point of an accepted function, distinct visible local variables have distinct slot numbers, all within the frame size handed to the code generator; a block's slots are reused only after the block ends.", "quantifier": "all nestings of blocks and declarations", "why_tests_cant": "Slot reuse depends on nesting history.", "anchors": ["src/parser.c: getLVar getLVars getBlock getFor curCnt maxCnt"]}
{"id": "C40", "title": "Optimising an expression does not change its value", "statement": "For every expression without side effects, evaluation before and after optimisation gives the same 16-bit value in every state in which the original evaluates without a division by zero and the optimiser does not stop with an error. (False in the code for division chains x/c1/c2 whose constant product overflows 16 bits.)", "quantifier": "all expressions and all states", "why_tests_cant": "Rewriting is applied to unboundedly many trees; 16-bit wrap-around.", "anchors": ["src/optree.c: optExp moveLeft pullTree canPull arrExp moveCnst normSub calExp opt*"]}
{"id": "C41", "title": "Optimising an expression does not lose or reorder side effects", "statement": "For every expression, the optimised expression performs the same calls and assignments in the same order. (False in the code: f()*0, f()&0, f()&&false and the like lose the call.)", "quantifier": "all expressions, states and called functions", "why_tests_cant": "Needs all trees with effects.", "anchors": ["src/optree.c: optMul optBAnd optBOr optMod optAnd optOr"]}
{"id": "C42", "title": "The optimiser does not reject valid programs", "statement": "If no subexpression of a program divides by the constant zero or shifts by a constant outside 0..15, compiling with -O1 does not stop with an arithmetic error. (False in the code: x/256/256.)", "quantifier": "all expressions", "why_tests_cant": "All constant combinations.", "anchors": ["src/optree.c: optDiv optMod optShl optShr moveCnst"]}
{"id": "C43", "title": "Optimising statements does not change control flow", "statement": "For every function body, the optimised statement has the same behaviour (final state, break/continue/return outcome) as the original in every state. (False in the code for do ... while(false) whose body contains break or continue.)", "quantifier": "all statements and states, including non-terminating loops", "why_tests_cant": "All nestings of loops and jumps.", "anchors": ["src/optree.c: optTree optIf optEls optWhl optDo optBlk optRet"]}
{"id": "C44", "title": "Code for expressions computes the value and effects of the expression", "statement": "For every expression, running the generated stack code from any state pushes exactly one word, the value of the expression under some operand order permitted by the language, has the corresponding side effects and nothing else, and leaves the rest of the stack unchanged.", "quantifier": "all expressions, states, stacks and called functions", "why_tests_cant": "Induction over all trees.", "anchors": ["src/vmCode.c: genExpr genBoolExpr genFactor gen1OpExpr gen2OpExpr genCmpExpr genAsExpr genCommExpr genIdxExpr genDotExpr genArgs load store evalDepth"]}
{"id": "C45", "title": "&& and || are short-circuit in every nesting", "statement": "For every nesting of && and || in a value or condition position, the generated jumps evaluate the terms left to right, evaluate a term only if its value is needed, and continue at the true or false continuation exactly according to the value.", "quantifier": "all nestings of && and || and all term values", "why_tests_cant": "The label-passing scheme has unboundedly many shapes.", "anchors": ["src/vmCode.c: genLogExpr genLOpExpr genCnd boolJmp", "src/vm.h: vmBoolOR vmBoolAND"]}
{"id": "C46", "title": "Code for statements behaves as the statement", "statement": "For every statement whose execution from a state terminates (normally or by return), running the generated code from that state ends at the corresponding point with the corresponding state and stack, including nested loops with break, continue and return.", "quantifier": "all statements and states", "why_tests_cant": "All nestings and iteration counts.", "anchors": ["src/vmCode.c: traceTree genIf genEls genWhl genDo genBrk genCnt genRet jmpBlock genFunc"]}
{"id": "C47", "title": "Every label is defined exactly once and every jump has a target", "statement": "In the code generated for any function (break/continue inside loops only), no two label definitions coincide, labels of different functions are different, and every jump refers to a label defined in the same function.", "quantifier": "all functions and sequences of functions", "why_tests_cant": "Label allocation is lazy (-1 until first use) and depends on all nestings.", "anchors": ["src/vmCode.c: newLab newLabel printLab genLogExpr genWhl genDo genBrk genCnt genRet genFunc"]}
{"id": "C48", "title": "Static arrays have the declared shape", "statement": "array(n1,...,nk) generates n1*...*n(k-1) leaf areas of nk elements and pointer tables such that following indices (i1,...,ik) with every ij<nj leads to distinct elements, each inside its area.", "quantifier": "all dimension lists", "why_tests_cant": "Any number of dimensions and sizes.", "anchors": ["src/vmCode.c: genArray0 genArray"]}
{"id": "C49", "title": "Accumulator bookkeeping never loses or shares a register", "statement": "After any sequence of code-generation calls that respects the stack discipline, every accumulator is either free or owned by exactly one stack entry, the counter equals the number of busy accumulators, spilled entries lie below all entries held in accumulators, and a function result is always delivered in G0.", "quantifier": "all instruction sequences", "why_tests_cant": "Invariant over all sequences.", "anchors": ["src/vm2tac.c: relAcc allocAcc outStk outStkAll loadStk vmCallF cal rcal cmp"]}
{"id": "C50", "title": "TaC code for straight-line expressions computes what the stack code computes", "statement": "For every sequence of stack instructions without jumps, executing the emitted TaC instructions transforms registers, memory and hardware stack so that the value represented by each virtual stack entry is the value on the abstract stack.", "quantifier": "all straight-line instruction sequences and machine states", "why_tests_cant": "Register allocation and spilling depend on the whole sequence.", "anchors": ["src/vm2tac.c: calReg loadReg loadStk outStk cal rcal cmp vmLdWrd vmLdByt vmStWrd vmStByt vmArg vmCallF"]}
{"id": "C51", "title": "Conditional evaluation inside an expression does not unbalance the hardware stack", "statement": "On every path through the code of one expression the hardware stack is popped as often as it was pushed. (False in the code: a value spilled by a call in the right operand of && or || is not spilled on the path that skips the call.)", "quantifier": "all expressions and all paths", "why_tests_cant": "All combinations of spills and short-circuit jumps.", "anchors": ["src/vm2tac.c: outStkAll boolJmp boolOrAnd flagOrAnd"]}
{"id": "C52", "title": "Multiplication, division and remainder by powers of two equal the general operation", "statement": "Replacing x*2^n, x/2^n and x%2^n by shifts and masks gives the same result as the multiply, divide and remainder instructions for every x. (True for multiplication; false for / and % of negative x.)", "quantifier": "all x and all powers of two", "why_tests_cant": "All 65536 dividends; negative numbers.", "anchors": ["src/vm2tac.c: isPower2 vmMul vmDiv vmMod"]}
{"id": "C53", "title": "Comparison results are turned into the right conditional jumps", "statement": "Negating a condition by (n+3)%6 and mirroring it by swapJcc agree with logical negation and operand exchange for signed comparison of all operands, and a value tested by JT/JF is tested on its own value. (The last clause is false in the code after an assigned comparison: if (b = x < y) tests the flags of x == y.)", "quantifier": "all operand pairs and all instruction sequences", "why_tests_cant": "Flag liveness depends on the preceding sequence.", "anchors": ["src/vm2tac.c: jcc swapJcc cmp boolJmp loadFlg clearFlg loadStk vmStLoc vmStGlb"]}
{"id": "C54", "title": "Function entry and exit preserve the caller's registers and stack", "statement": "Executing the entry sequence, any body that leaves the hardware stack as it found it and does not write the saved area, and the exit sequence restores SP, FP and all register variables, for every number of locals.", "quantifier": "all frame sizes and machine states", "why_tests_cant": "All numbers of locals around the register limit.", "anchors": ["src/vm2tac.c: makeFrame cancelFrame vmEntry vmRet vmEntryI vmRetI"]}
{"id": "C55", "title": "The C translator prints expressions unambiguously", "statement": "The C text printed for an expression, read back with C's grammar, is the same expression; statements are separated so that no keyword merges with the following token. (False in the code for do bodies: 'do f();' prints 'dof();'.)", "quantifier": "all expression and statement trees", "why_tests_cant": "Unbounded trees; token boundaries.", "anchors": ["src/cCode.c: printExp printOP printDo traceTree"]}
{"id": "C56", "title": "Reducing constants keeps them in the 16-bit range", "statement": "Every constant left in an expression after optimisation is in 0..65535, so the code generator, the power-of-two test and the constant-zero test see canonical values.", "quantifier": "all expressions", "why_tests_cant": "All intermediate overflows.", "anchors": ["src/optree.c: calExp WMSK isCnstN getSInt"]}
{"id": "C57", "title": "Initialised data have the written contents", "statement": "For every initialiser accepted for a global variable, the generated data, read back from the variable's word, are exactly what was written: nested lists in braces become areas holding the listed values in order, byte lists become one byte per value, array(...) inside a list becomes an array of the declared shape, addresses and strings become references, and the variable's word refers to the outermost area; every label used is defined exactly once.", "quantifier": "for all well-formed initialiser trees of any nesting depth and width, and all starting label numbers", "why_tests_cant": "the nesting depth and the number of elements are unbounded, and the label bookkeeping between passes over the tree depends on the whole shape", "anchors": ["src/vmCode.c genList0", "src/vmCode.c genList", "src/vmCode.c genData", "src/vmCode.c genDW"]}
{"id": "C58", "title": "Formatted output reaches the file", "statement": "On an output stream without error whose writes the system accepts, fprintf with a valid format returns the number of characters of the formatted text, and exactly this text is appended to the bytes delivered and buffered for the stream; a following fflush delivers all of it.", "quantifier": "for all formats, arguments, earlier histories of the stream and buffer fill levels", "why_tests_cant": "the text crosses buffer boundaries at every possible fill level, and format and history are unbounded", "anchors": ["lib/SrcTac/printf.cmm: print", "lib/SrcTac/stdio.cmm: fputc fflush"]}
{"id": "C59", "title": "TaC code of function bodies with jumps behaves as the stack code", "statement": "Every run of the stack code of a function body, with loops, conditions, calls and returns, is followed by the TaC lines printed for it: whenever the stack machine is between two statements, the processor is at the line belonging to that place, and SP, FP, the register variables and all memory outside the hardware stack agree; at a return, register G0 holds the returned value. A conditional jump is taken exactly when the tested value says so, and every jump finds the one line that carries its label.", "quantifier": "for all instruction sequences, all start states and runs of any length", "why_tests_cant": "runs are unbounded, and what a line means depends on the lazily kept virtual stack and on which value the flags belong to", "anchors": ["src/vm2tac.c boolJmp", "src/vm2tac.c vmJmp", "src/vm2tac.c vmJT", "src/vm2tac.c vmJF", "src/vm2tac.c vmLab", "src/vm2tac.c vmMReg"]}
{"id": "C60", "title": "A translated program with functions calling each other runs as its stack code", "statement": "If calling function f of a program returns v in the stack code semantics, with calls and recursion nested at most n deep, then on the TaC machine, with a real stack, CALL f comes back to the line after the CALL with v in G0, the memory outside the stack as the stack code leaves it, SP, FP and the caller's register variables unchanged, and everything above the arguments on the stack unchanged, provided the stack has room for n frames. The printed text is deterministic: labels and function names are defined once.", "quantifier": "for all programs, all arguments, all memories, all depths of recursion", "why_tests_cant": "recursion depth and runs are unbounded; frames, saved registers, arguments and spilled values of all active functions share one stack", "anchors": ["src/vm2tac.c vmEntry", "src/vm2tac.c vmEntryK", "src/vm2tac.c vmRet", "src/vm2tac.c vmCallF", "src/vm2tac.c vmCallP", "src/vm2tac.c vmArg", "src/vm2tac.c makeFrame", "src/vm2tac.c cancelFrame"]}
{"id": "C61", "title": "The compiler as a whole: trees of a program to TaC lines", "statement": "If calling function f of a program of syntax trees returns v and leaves a memory, by the meaning of the trees (conditions, loops, break, continue, return, assignments, calls and recursion nested at most n deep), then the lines printed by vm2tac.c for the code that vmCode.c generates from these trees, run on the TaC machine with a real stack, come back from CALL f with v in G0, the same memory outside of the stack, and SP, FP, the caller's register variables and the caller's part of the stack unchanged, provided the stack has room for n frames.", "quantifier": "for all programs, all arguments, all memories, all depths of recursion", "why_tests_cant": "programs, runs and recursion are unbounded; the stack discipline that vm2tac.c relies on has to hold for the code of every tree", "anchors": ["src/vmCode.c genFunc", "src/vmCode.c genTree", "src/vmCode.c genBoolExpr", "src/vm2tac.c"]}
{"id": "C62", "title": "The compiler comes to an end without an internal error", "statement": "For every program of well-formed trees (&& and || in conditions only) whose expressions need at most 20 entries of the virtual stack and in which no multiplication computes a comparison last, vm2tac.c translates all the code that vmCode.c generates: no BUG test and no overflow test stops it, and between functions the virtual stack is empty and all accumulators are free.", "quantifier": "for all programs, all functions, all states of vm2tac.c between functions", "why_tests_cant": "programs are unbounded and the internal tests depend on which registers happen to be busy", "anchors": ["src/vm2tac.c allocAcc", "src/vm2tac.c loadReg", "src/vm2tac.c pushStk", "src/vm2tac.c cancelFrame", "src/vm2tac.c vmMul", "src/vmCode.c genFunc"]}
{"id": "C63", "title": "The compiler is right for every program whose trees avoid the known defects", "statement": "For every program of well-formed trees (&& and || in conditions only) in which (a) no variable or memory cell is assigned and no function called while an old value of it is pending as an operand, (b) comparisons with the constant 0 follow operations whose flags are right for them, (c) values tested directly are not read from memory through a computed address, (d) expressions need at most 20 stack entries and (e) no multiplication computes a comparison last, the compiler (vmCode.c, vm2tac.c) translates the program without an error and the printed lines do what the trees mean: CALL f comes back with the value of f in G0, the right memory, and SP, FP, register variables and the caller's stack unchanged. All conditions are decided on the tree alone.", "quantifier": "for all programs, all arguments, all memories, all depths of recursion, all lines printed before", "why_tests_cant": "which registers are busy, spilled or left in flags depends on the whole expression around an operand; no finite set of expressions covers all contexts", "anchors": ["src/vmCode.c genFunc", "src/vmCode.c genCmpExpr", "src/vm2tac.c cmp", "src/vm2tac.c vmLdLoc", "src/vm2tac.c vmStLoc", "src/vm2tac.c vmCallF", "src/vm2tac.c boolJmp"]}
{"id": "C64", "title": "Programs that the parser accepts are compiled correctly", "statement": "For every list of tokens that the parser accepts (compiled with -O0): no function is defined twice; every function that is handed to the code generator calls only functions and uses only variables of its name table, has values where values are used, jumps only inside loops and keeps its variables within its frame, so that it meets the conditions of C63 on names, types and jumps. Hence, if in addition the trees avoid the known defects (&& and || as values, unused element accesses, results of void functions, and the conditions of C63), the lines printed for the program do what its trees mean; different entries of the name table for the same name (a prototype and its definition) are the same label.", "quantifier": "for all token lists, all arguments, all memories, all depths of recursion", "why_tests_cant": "the claim joins the symbol table, the type checker, the code generator and the assembler output for every accepted program; tests only sample programs", "anchors": ["src/parser.c getSrc", "src/parser.c getFunc", "src/vmCode.c genFunc", "src/vm2tac.c vmEntry", "src/vm2tac.c getPref"]}
{"id": "C65", "title": "The optimising compiler is correct for accepted programs", "statement": "For every list of tokens that the parser accepts with the optimiser switched on (the default): the lines printed for the optimised program do what the trees mean that the parser built before optimisation, operands evaluated from left to right. Conditions: on the trees before, the known defects of the optimiser do not occur (no call or assignment is dropped, no quotient is divided again by a constant, && and || and ! work on truth values, loops that are executed exactly once have no break or continue); on the optimised trees, the conditions of C64.", "quantifier": "for all token lists, all arguments, all memories, all depths of recursion", "why_tests_cant": "the optimiser rewrites trees of any depth, and agreement of source and lines has to hold for every program, input and recursion depth", "anchors": ["src/optree.c optTree", "src/optree.c optExp", "src/optree.c arrExp", "src/optree.c calExp", "src/optree.c moveCnst", "src/parser.c getFunc", "src/vmCode.c genFunc", "src/vm2tac.c"]}
{"id": "C66", "title": "The assembler text of an accepted program means what its trees mean", "statement": "For every accepted program whose functions and global variables have names of letters, digits and _, private ones not of the form L<number> or T<number> and no public one called _stkChk: vm2tac.c prints every line (its tables of registers and jumps are read within their bounds), and the characters printed, read line by line as assembler text (label field, mnemonic, operands separated by commas), are exactly the instructions for which C64 and, with the optimiser, C65 show that they do what the trees mean. Without the condition on names different instructions have the same text.", "quantifier": "for all token lists, all names, all texts printed, all arguments, memories and depths of recursion", "why_tests_cant": "names, numbers, register indices and jump indices are unbounded in combination; two lines that print alike are found only by a test that happens to use the colliding name", "anchors": ["src/vm2tac.c getPref", "src/vm2tac.c calReg", "src/vm2tac.c makeFrame", "src/vm2tac.c cancelFrame", "src/vm2tac.c vmLab", "src/vm2tac.c vmNam", "src/vm2tac.c vmEntry", "src/vm2tac.c vmCallF", "src/vm2tac.c vmBoolOR"]}
{"id": "C67", "title": "From the characters of the source to the characters of the assembler program", "statement": "A source file without zero bytes and without the byte 202 is read as lexemes and gaps; the parser gets the token of each lexeme with the value of that lexeme, directives and gaps leave no trace; every name in the name table of an accepted program is a name written in its text, hence of letters, digits and _ ; and the assembler text printed for it, read line by line, does what the trees of the program mean (without and with the optimiser). A stray byte 202 is taken as a name with the spelling of an earlier lexeme.", "quantifier": "for all byte strings, all layouts of lexemes, all options, all arguments, memories and depths of recursion", "why_tests_cant": "source texts and layouts are unbounded; that lxGetVal and lxGetStr belong to the current token depends on the whole history of calls", "anchors": ["src/parser.c getTok", "src/parser.c psGetSrc", "src/parser.c getName", "src/lexer.c lxGetTok", "src/lexer.c lxGetStr", "src/lexer.c lxGetVal", "src/lexer.c getSign", "src/namtbl.c ntDefName"]}
{"id": "C68", "title": "The stack machine text of vm2vm.c", "statement": "For every accepted program (&& and || in conditions only; with the optimiser also the conditions of C65 on trees), the characters that the back end vm2vm.c prints for its functions can be read by an assembler for the stack machine of doc/vm.tex; all labels are different, the machine that executes the text is deterministic, and whenever a call returns by the meaning of the trees, the machine, started at the name of the function with the arguments in its parameters, returns to the caller with the value of the function on the stack and the same memory, whatever its local variables contain at the beginning. A private name like L5 makes the text ambiguous.", "quantifier": "for all source texts, arguments, memories, stacks, depths of recursion and initial contents of local variables; for all positions of comment lines", "why_tests_cant": "programs, runs and states are unbounded", "anchors": ["src/vm2vm.c vmNam", "src/vm2vm.c vmLab", "src/vm2vm.c vmLdPrm", "src/vm2vm.c vmStPrm", "src/vm2vm.c vmCallF", "src/vm2vm.c vmBoolOR", "src/vm2vm.c vmLdLab", "src/vm2vm.c vmLdNam", "src/vmCode.c genFunc", "doc/vm.tex"]}
{"id": "C69", "title": "The text of global variables and strings", "statement": "For every accepted source text (without the bytes 0 and 202), every tree of initial values that the parser hands to the code generator is well formed, and the characters printed for a variable can be read line by line as data directives which represent its initial value - constants, bytes, strings, nested lists and arrays - under the name of the variable, whatever data stand before and behind them. vm2vm.c does so for all initial values, vm2tac.c for those without addrof: it prints another name, or reads outside of its stack, for the address of a function or variable. Variables without initial value get one word, strings their characters.", "quantifier": "for all source texts, options, initial values of any nesting and size, and surrounding data", "why_tests_cant": "initial values are nested without bound and the labels depend on all data and code before them", "anchors": ["src/parser.c getInit", "src/parser.c getGVar", "src/vmCode.c genData", "src/vmCode.c genBss", "src/vmCode.c genStr", "src/vm2vm.c vmDwName", "src/vm2vm.c vmDwLab", "src/vm2tac.c vmDwName", "src/vm2tac.c vmDwLab", "src/vm2tac.c vmString"]}
{"id": "C70", "title": "Initial values of global variables mean what is written", "statement": "The parser accepts, as the initial value of a variable of a type, exactly the token sequences of a grammar - constants, null, strings, array(...), lists in braces nested to the dimension of the type, structures with all their fields in order - and builds the tree of the grammar; the grammar is unambiguous. A number in the tree is the value of the expression written (if the optimiser removes no call and no assignment from it), and the data made for the variable represent the tree. f() * 0 is accepted as a constant although it calls a function.", "quantifier": "for all token sequences, name tables, types, dimensions and nesting depths", "why_tests_cant": "initial values are nested without bound; acceptance and meaning have to agree for every type", "anchors": ["src/parser.c getCnst", "src/parser.c getArray0", "src/parser.c getArray", "src/parser.c getStructInit0", "src/parser.c getStructInit", "src/parser.c getGArrayInit0", "src/parser.c getGArrayInit", "src/parser.c getGVar", "src/vmCode.c genData"]}
{"id": "C71", "title": "Every global name is defined as declared, once", "statement": "What the parser hands to the code generator agrees with the name table at the end: a function that has a body is defined exactly once and not as a variable, a function that is only declared never, a variable without an initial value gets room exactly once, a variable with an initial value gets the value exactly once, possibly after room from an earlier declaration; no other name is defined. So no name is defined twice except room followed by a value, which does occur (int v; int v = 3;).", "quantifier": "for all token sequences the parser accepts, any number of declarations and repeated declarations", "why_tests_cant": "repeated declarations of the same name interact over the whole program: prototype, definition, tentative definition, initial value, in any order and number", "anchors": ["src/parser.c getGVar", "src/parser.c getGVars", "src/parser.c getFunc", "src/parser.c psGetSrc", "src/namtbl.c ntSrcGlob", "src/namtbl.c ntSetScope", "src/namtbl.c ntUndefName"]}
{"id": "C72", "title": "Statements are parsed as the grammar says", "statement": "The parser accepts exactly the statements and local declarations of a grammar written down separately, and gives them the tree, the visible names, the slots of local variables, the number of string labels and the mark of the last statement that the grammar gives: getStat reads ts before r (which does not begin with else) if and only if ts is a statement of the grammar; likewise blocks up to their closing brace. A statement that does not end with an if without else is read whatever follows. The grammar is unambiguous: the tokens determine the tree, the names and whether the statement is open; an else belongs to the nearest if that has none.", "quantifier": "for all states of the parser, all token sequences of any length, all nestings of statements and declarations, all types of the function", "why_tests_cant": "statements nest without bound; the dangling else, the extent of scopes and the return and break checks depend on the whole context", "anchors": ["src/parser.c getStat", "src/parser.c getIf", "src/parser.c getWhile", "src/parser.c getDoWhile", "src/parser.c getFor", "src/parser.c getReturn", "src/parser.c getBreak", "src/parser.c getCont", "src/parser.c getBlock", "src/parser.c getLVar", "src/parser.c getLVars"]}
{"id": "C73", "title": "Programs are parsed as the grammar says", "statement": "psGetSrc accepts exactly the texts of a grammar of programs written down separately (structures, typedefs, global variables with and without initial values, prototypes and functions, with public), knows at the end the names of the grammar, and has handed to the code generator, in the order of the text, exactly the things of the grammar: for each function body the entry of the function, the number of slots, the tree as written, the tree optimised and the names; for each new variable without a value room for it; for each initial value its data and labels. A declaration is read whatever follows it. Where a declaration ends, what it makes and the names it leaves are determined by the text, so the grammar is unambiguous.", "quantifier": "for all token sequences of any length, all options of optimisation and kernel mode", "why_tests_cant": "programs are unbounded; redeclarations, prototypes and definitions interact through the name table in ways that no finite set of programs covers", "anchors": ["src/parser.c psGetSrc", "src/parser.c getProg", "src/parser.c getFunc", "src/parser.c getParams", "src/parser.c getGVar", "src/parser.c getGVars", "src/parser.c getStruct", "src/parser.c getFieldLine", "src/namtbl.c ntDefName"]}
{"id": "C74", "title": "The intermediate-code text determines the calls", "statement": "The back end vm2ic.c prints every call of a function of vm.h in such a way that the sequence of calls (functions, arguments, macro instructions with and without a second label, data directives, strings without newline) can be read back from the text; only the indices of local variables and parameters are replaced by their numbers. The instructions read are the same that the text of vm2vm.c stands for, and for an accepted program (&& and || in conditions only) they do what its trees mean, with and without the optimiser; the data read represent the initial values. That an index in the text belongs to one name is false when a variable is declared again with a value.", "quantifier": "for all sequences of calls of any length, all name tables, all accepted source texts", "why_tests_cant": "two different calls printed alike would only be seen by comparing all pairs of calls; sequences, numbers and strings are unbounded", "anchors": ["src/vm2ic.c vmNam", "src/vm2ic.c vmLdPrm", "src/vm2ic.c vmCallF", "src/vm2ic.c vmBoolOR", "src/vm2ic.c vmDwName", "src/vm2ic.c vmStr", "src/parser.c getGVar"]}
{"id": "C75", "title": "Initial values in the C translator", "statement": "For an initial value of a global variable the C translator prints definitions of auxiliary objects and an initial value such that: the labels are new and consecutive; every definition is correct C after the ones before it (elements and members have the declared types, one element per member of a structure, no array is empty or of void, only objects defined earlier are named); the value has the C type of the variable; the objects hold exactly the data the source says, nested lists, strings, null and arrays of any number of dimensions included; every object is referred to exactly once, so no two arrays share storage. This holds for all accepted initial values without addrof and not of type void[]; an address inside a list or as a size is accepted by the parser but stops the translator with an internal error, and void[] arrays yield arrays of void, which C forbids.", "quantifier": "for all name tables, all types and numbers of dimensions, all accepted initial values of any nesting and length, all values of the label counter", "why_tests_cant": "nesting depth, number of dimensions and sizes are unbounded, and a wrong number of stars, a missing & or shared storage shows only for particular combinations of structure, dimension and position", "anchors": ["src/cCode.c printArray0", "src/cCode.c printPtrArray", "src/cCode.c printList0", "src/cCode.c printList1", "src/cCode.c printList2", "src/cCode.c printType", "src/cCode.c genData", "src/parser.c getInit"]}
{"id": "C76", "title": "Names in the C text mean the variables of the source", "statement": "In the text the C translator prints for a function, the scope rules of C (names declared in blocks, hiding, parameters belonging to the body, one declaration per name and block) give every name the declaration that the parser had chosen for it: local variables and parameters are told apart from equally named globals and from each other, and nothing is declared twice, for all nestings of statements. This holds for functions without a block that is a single declaration without value and without names of the form of string labels. It is false otherwise: such a block loses its braces, so that `{ int x; } x = 1;` assigns to the local variable instead of a global one and `{ int a; } { int a; }` declares a name twice; a variable called `_cmm_1S` has the name of a string in the text (it hides the string with _RTC; without it the name is a macro).", "quantifier": "for all name tables, all functions of the grammar of statements (C72) with any parameters, nesting, declarations and for loops, all assignments of names to entries", "why_tests_cant": "the nesting of blocks, the order of declarations and the coincidence of names are unbounded; a wrong capture shows only for particular names at particular places", "anchors": ["src/cCode.c printBLK", "src/cCode.c genFunc", "src/cCode.c printVAR", "src/parser.c getLVar", "src/parser.c getBlock", "src/parser.c getFor", "src/namtbl.c ntSetVoid"]}
{"id": "C77", "title": "The C text of a well-typed program is well typed in C", "statement": "If an expression, statement or function is well typed by the manual of C--, the text the C translator prints for it is well typed by the rules of C: every expression has a type, operands and arguments have the types C asks for, assigned, initial and returned values can be converted without a cast, conditions are scalar, and the type of an expression is the one its variable would be declared with (or int in the place of char and bool). This holds without arrays of more than one dimension of void and without null behind a comma, and only for the rules of the manual. Otherwise it is false: `void[][]` takes every array but `void **` does not; the compiler compares char[] with int[] and void with void; `a = (f(), null)` becomes `a=(f(),0)`, where 0 is no null pointer.", "quantifier": "for all name tables and C declarations that agree with them, all expressions, statements and functions of the grammars (C37, C72) of any nesting", "why_tests_cant": "the nesting of types, expressions and statements is unbounded, and whether the text is accepted depends on the combination of types in it", "anchors": ["src/cCode.c printType", "src/cCode.c printExp", "src/cCode.c printVAR", "src/cCode.c genFunc", "src/parser.c chkType", "src/parser.c chkCmpat", "src/parser.c getReturn"]}
{"id": "C78", "title": "The C text of a file is a correct file of C", "statement": "The declarations the C translator prints for a program make a correct translation unit of C: the type of every variable, member, parameter, result and local declaration has been declared before it is used; a name is declared again only with the same type and linkage; no name is defined twice; members and parameters have different names and are scalars; every function is well typed behind what has been printed before it. At the end C has seen exactly the types and names of the source, with their types and linkage. The text of a file without values of variables is read as these declarations, in one way only, if the names of the source are identifiers of C, no body of a do statement begins with a word and no function has only `...`. This holds for programs well typed by the manual without `typedef`, within the limits of C77. With `typedef X;` nothing is printed, so that the type X is unknown unless a C header declares it.", "quantifier": "for all programs: any number of structures, variables with and without values, prototypes, definitions, and repeated declarations in any order", "why_tests_cant": "The number and order of declarations are unbounded; a file is wrong only if one declaration disagrees with another far before it.", "anchors": ["src/cCode.c:66-128", "src/cCode.c:389-405", "src/cCode.c:578-600", "src/cCode.c:634-649", "src/parser.c:231-246", "src/parser.c:1087-1256", "src/namtbl.c"]}
{"id": "C79", "title": "Headers of the system in the C text", "statement": "For every program with all files it includes, nested arbitrarily, the C translator prints the declarations of all files that are not headers of the system (below a directory cmmInclude, ending with .hmm), each once and in their order, none of those of headers of the system, and one `#include <x.h>` where a header of the system x.hmm begins; coming back to a file prints nothing. strEndsWith decides whether a string ends with another one, and no null pointer is used. The header printed is the one named in the source with .h for .hmm if it lies directly in cmmInclude. It is false for directories below: `#include <sys/fs.hmm>` becomes `#include <fs.h>`.", "quantifier": "all trees of included files, all file names, all declarations, all positions of line marks", "why_tests_cant": "The nesting of included files is unbounded, and whether text is printed depends on the last of all directives read before; tests show some programs with one level of headers.", "anchors": ["src/cCode.c:650-668", "src/parser.c:139-159", "src/parser.c:1266-1279", "src/util.c:104-113"]}
{"id": "C80", "title": "The strings of the C text are those of the source", "statement": "For every function that the C translator accepts (without the optimiser, whose names and parameters do not look like labels of strings), the macros printed before it define one label for each of its strings, no label is defined twice in the program, and after the replacement of macros the strings in its text are those of the source, each with its own characters and in the same order, however the text is read; no other word of the text is replaced. The text of the macros can be read in one way only. It is false if a name looks like a label: a parameter `_cmm_2S` becomes a string.", "quantifier": "all well-formed functions, statements and expressions with any number of strings, anything printed before", "why_tests_cant": "Labels are counted over the whole program by the parser, in the order of parsing, and printed by another part in the order of the tree; that both orders agree for every nesting of statements, calls and assignments is a statement about all programs.", "anchors": ["src/cCode.c:602-632", "src/cCode.c:56-58", "src/parser.c:510-515"]}
{"id": "C81", "title": "Arguments of the compiler and names of sources", "statement": "main() reads a source exactly if its arguments are at most one of -O and -O1, then perhaps -O0, then perhaps -K, then at most one file (an argument that may be an option is one); the flags are those of the options (optimisation on unless -O0, kernel mode only with -K) and the input is the file or stdin. -v or -h as first argument prints the usage with status 0, everything else with status 1. The order of options matters, also against the usage line: `-O0 -O x.cmm` is refused. setFname keeps a name of at most StrMAX bytes as it is, in particular all names of directives. Longer names are not refused by error(), a byte behind the array is read.", "quantifier": "all lists of arguments, all names", "why_tests_cant": "Lists of arguments and names are unbounded; the byte behind the array is zero in most runs, so that a test sees no difference.", "anchors": ["src/main.c:59-106", "src/util.c:50-59", "src/lexer.c:197-217"]}
{"id": "C82", "title": "fseek on buffered streams", "statement": "For every sequence of fgetc, feof, fgets and fseek on a file open for reading, between anything else the program does, the bytes after a seek are those of the file from the offset (h*65536+l) on, whatever the buffer held and whether or not the end had been seen before. For every sequence of fputc, fputs, fflush and fseek on a file open for writing without errors, the file together with the buffer is the one the same calls make without a buffer. A refused seek ends the program with the result of the system. fseek reports errors of the flush: false, its result is ignored.", "quantifier": "all files, all splittings into reads, all call sequences, all offsets", "why_tests_cant": "The contents of the buffer when a seek happens depend on the whole history of calls and read results.", "anchors": ["lib/SrcTac/stdio.cmm: fseek fillBuf fflush feof fgetc fgets fputc"]}
{"id": "C83", "title": "readDir lists exactly the visible entries of a directory", "statement": "For every directory read in entries of 32 bytes and every contents of the buffer before, the calls of readDir until a result other than 1 give exactly the entries before the end mark that are not deleted, hidden or volume labels, in order, with name (05 as E5), attributes, cluster and size decoded; the last result is 0, or the error of a read that fails before the end mark. The end stays the end: false, a further call lists entries behind the mark. Short reads are noticed: false.", "quantifier": "all directories, all contents of the buffer", "why_tests_cant": "The number of skipped entries between two visible ones is unbounded.", "anchors": ["lib/SrcTac/stdio.cmm: readDir wordLE"]}
{"id": "C84", "title": "Numbers and offsets in the C library of translated programs", "statement": "The printf of translated programs prints %o and %x of an int, %d of an int and %ld of a long as the standard notation of the number in a field of the width asked for, and returns the number of characters; _fseek with the words of fsize goes to the end of the file. Proved for unsigned conversions of ints below 2^31 (all digits are right for every int without a width), %d of every int but the smallest, %ld on the right, and sizes whose lower word is below 2^31. False otherwise: %8x of 0xffffffff has 15 characters, %-ld of 100000005 prints 15, the negation of the smallest int overflows, printf returns 0, and the offset for a file of 2^31 bytes is negative.", "quantifier": "all numbers, widths, sides and fill characters", "why_tests_cant": "The numbers and widths are too many, and the faults need large values.", "anchors": ["lib/SrcC/printf.c: putC putNum numLen uPutNum sPutNum conv32", "lib/SrcC/wrapper.c: _fseek fsize", "lib/SrcC/wrapper.h: lToL"]}
{"id": "C85", "title": "System calls with paths use canonical absolute paths and free their buffer", "statement": "exec, creat, remove, mkDir, rmDir, open and stat either make exactly one system call, that of their name, with the canonical absolute path of their argument and the other arguments as given, and return its result; or they make none, return a negative error, and leave the same error in errno. Which happens is decided by the length of the path and by the answer of the system about the directory of the path. In all cases the buffer got for the path is freed exactly once, after the call, and no other memory is changed by the function itself.", "quantifier": "for all paths, working directories, other arguments, memories, addresses of the buffer, and all answers of the system", "why_tests_cant": "Paths, working directories, memories and answers of the system are unbounded in combination; leaks and double frees on rare error paths do not show in the result.", "anchors": ["lib/SrcTac/wrap-syslib.cmm:36-54", "lib/SrcTac/wrap-syslib.cmm:58-114", "lib/SrcTac/environ.cmm:205-238"]}
{"id": "C86", "title": "Formats of printf in the C library of translated programs", "statement": "For a format made of characters and conversions (%, an optional -, an optional width, and o, d, x, c, s, % or ld) the printf of translated programs prints the characters and, for each conversion, the text of its own argument in a field of the width, in order, and returns. At a conversion that is none, also when the format ends within it, the text before has been printed and the program ends with exit(1); nothing behind the format is read. Proved for widths below 2^31, the numbers of C84, and longs on the right; false for %-ld.", "quantifier": "all formats (any number of pieces), arguments, widths and fill characters", "why_tests_cant": "Formats have any length and combine all conversions, widths and arguments; reading behind the end of the format need not show.", "anchors": ["lib/SrcC/printf.c:58-72", "lib/SrcC/printf.c:120-172", "lib/SrcC/printf.c:174-202"]}
{"id": "C87", "title": "Arguments of main and htoi in the C library of translated programs", "statement": "With run-time checks, main of translated programs hands to the program argc, all arguments and the whole environment, in order: each array has a checked length equal to the number of its elements, the strings followed by NULL, and each string has a checked length of its bytes and the NUL; no write is outside of what was allocated. htoi gives the number of the hexadecimal digits of both cases a text begins with if it is below 2^31, so that what %x prints of such an int is read back.", "quantifier": "all lists of arguments and environments, all strings, all texts and numbers", "why_tests_cant": "Arguments and environments have any number and length; writes one element outside of the allocated memory need not show.", "anchors": ["lib/SrcC/wrapper.c:53-82", "lib/SrcC/wrapper.c:128-139", "lib/SrcC/wrapper.h:53-57"]}
{"id": "C88", "title": "Run-time checks of array accesses in translated programs are safe", "statement": "An array of n ints, characters or references allocated by a translated program with run-time checks can be accessed at exactly the indices 0 to n-1: every access that passes the check is in the memory allocated and behind the stored length, different elements share no byte, all other indices and NULL abort, and without memory the program ends. Proved if header and elements have less than 2^31 bytes; false otherwise: for 2^30 ints 4 bytes are allocated and element 0, behind them, passes the check; for -1 ints the length itself is stored outside.", "quantifier": "all kinds of arrays, lengths, indices and answers of malloc", "why_tests_cant": "Lengths and indices are too many, and accesses outside of the allocated memory need not show.", "anchors": ["lib/SrcC/wrapper.h:51-98", "lib/SrcC/wrapper.h:258-283", "lib/SrcC/wrapper.c:86-93"]}
{"id": "C89", "title": "absPath, getenv and feof in the C library of translated programs", "statement": "absPath fails exactly if there is no such path, else stores the path as a string in the array and changes nothing behind it. getenv with run-time checks returns NULL exactly for variables that do not exist, else a string with its checked length; over any number of calls no memory is freed twice and only the last string is kept. feof says whether no byte is to come without taking one, so that reading while it is false gives all bytes and no EOF. Proved for paths shorter than the array; false for longer ones, of which absPath stores the beginning without NUL and reports success, and a string of getenv does not stay after the next one is found.", "quantifier": "all paths, arrays, sizes, sequences of calls of getenv, and streams", "why_tests_cant": "Paths, sequences of calls and streams have any length; a missing NUL or use of freed memory need not show.", "anchors": ["lib/SrcC/wrapper.h:169-175", "lib/SrcC/wrapper.h:225-235", "lib/SrcC/wrapper.c:106-111"]}
