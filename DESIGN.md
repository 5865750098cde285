# Formal model of C-- (compiler and run-time library): design

Source: `/repo` (tctsigemura/C--), read as text. Nothing in `/repo` is built or run.
Lean 4.33.0, project in `lean/`. Every definition in the model cites the file and
lines it transcribes.

## Trusted base

* The Lean kernel. No own axioms, no `sorry`, no `native_decide`, no `bv_decide`.
  Theorems depend on at most `propext`, `Classical.choice`, `Quot.sound`
  (the list per theorem is at the end of this file).
* The transcription of the C, C-- and TaC assembly text into Lean definitions.
  Each definition names its simplifications.
* The meaning given to the languages the code is written in:
  - C of the compiler: `int` as unbounded `Int`/`Nat` where no overflow can occur
    (noted where assumed); table indices as naturals.
  - C-- of the library: `int` and addresses are `BitVec 16`, `char` is `BitVec 8`
    (unsigned), comparison of `int` is signed, `addrof`/references are 16-bit
    addresses, memory is byte addressed.
  - TaC instructions (`Verif/Tac/Machine.lean`, `Verif/Lib/Crt0.lean`): the repository has
    no description of the processor. Assumed: `LD ST PUSH POP` and jumps keep the flags
    (vm2tac.c and crt0.s rely on it); an arithmetic operation sets Z, S, V of its result;
    `JLT` and its relatives test S xor V; `CMP` compares signed numbers; the stack grows
    downwards. V after operations other than AND/OR/XOR and the results of `DIV`/`MOD`
    are parameters, so theorems hold for every choice or name the choice they need.
  - The stack machine (`Verif/Gen/VM.lean`): doc/vm.tex, with the operand order the
    compiler uses (disagreement 17 below).
  - C as the target of `cCode.c` (`Verif/CText/Lex.lean`, `Grammar.lean`, `Stmt.lean`):
    ISO C tokens and the grammar of the constructs that can be printed.

`Verif/Parse/Eval.lean` is generated by `tools/gen_eval.py` from the relational parser and is
proved equivalent to it; neither file is trusted. `tools/mut.py` runs the mutation tests
logged in `seeded/LOG.jsonl`.

## What is modelled

| part | model | scope and simplifications |
|------|-------|---------------------------|
| lib/SrcCmm/ctype.cmm, string.cmm | `Lib/Ctype`, `Lib/String`, `Lib/Mem` | all functions; loops without step bound (`partial_fixpoint`), `none` = endless loop |
| lib/SrcTac/stdlib.cmm | `Lib/Malloc`, `Lib/Stdlib` | malloc, free, calloc, atoi, htoi, rand; heap configuration `Cfg` (pool address, heap bounds, upper bound below 65536) is a parameter; SP is a parameter of each call |
| lib/SrcTac/crt0.s | `Lib/Crt0` | 32-bit arithmetic, unsigned comparison, stack check message; control flow as structured code |
| lib/SrcC/printf.c, wrapper.c, wrapper.h | `Lib/CLib`, `Lib/CPrint`, `Lib/CMain`, `Lib/CArray`, `Lib/CEnv` | numbers, the count, offsets, format strings, main, htoi, arrays with run-time checks, absPath, getenv, feof; int has 32 bits, long 64; in main allocated memory is a list of elements; text on stderr and the functions that only hand on to C are not modelled |
| lib/SrcTac/wrap-syslib.cmm | `Lib/WrapSys` | all; malloc and free are events with a given address; the system is a function of call, arguments and memory |
| lib/SrcTac/stdio.cmm | `Lib/Stdio`, `Lib/Errno`, `Lib/ReadDir` | streams; the kernel and the allocator are an arbitrary function `Sys` of all earlier events; FILE records are a map from addresses, the buffer (DSIZ = 128) is part of the record; the mode string is given by its characters |
| lib/SrcTac/printf.cmm | `Lib/Printf` | all of vfprintf; the stream is a parameter; the digit string sits at a parameter address; DIV/MOD a parameter |
| lib/SrcTac/environ.cmm | `Lib/Environ`, `Lib/PathSpec`, `Lib/AbsPath` | getEnv, setEnv, setNEnv, putEnv, unsetEnv, _environInit over the modelled heap; absPath and its passes over byte memory |
| src/lexer.c | `Lex/*` | all of getTok; input is the rest of the byte list; token buffer of explicit size |
| src/main.c, src/util.c | `Lex/Main`, `Lex/Lex`, `CText/Direct` | main: the arguments; setFname, isDelim, isOdigit, strEndsWith; not ealloc, eOpen and messages |
| src/namtbl.c | `Parse/Tab`, `Parse/Scope` | tables as lists of records; capacity errors as rejection |
| src/parser.c | `Parse/*` | expressions, statements, functions, globals, structures, typedefs; tokens are abstract (`Tok`), an error is "no result" |
| src/sytree.c, optree.c | `Tree/*`, `Opt/*` | trees as inductive types, constants as `Int`; all expression rewrites and the statement part |
| src/vmCode.c | `Gen/*` | expressions, short circuit, statements, functions, data; the output is a list of instructions |
| src/vm2tac.c | `Tac/*` | the virtual stack, accumulators, register variables, all instruction printers, function entry and exit; the characters printed for functions (`Tac/Text`) and data (`Tac/DataText`) |
| src/vm2vm.c | `Tac/VmText`, `Tac/DataText` | the characters printed for functions and data |
| src/vm2ic.c | `Tac/IcText` | all functions; names have one number each, see disagreement 33 |
| src/cCode.c | `CText/*` | expressions, statements, function heads and prototypes, initial values (`CText/Data`); files (genStruc, genBss, genProto, `CText/Unit*`); without `_RTC`; genDirect with inhibitOut and psGetSrc as a sequence of directives and declarations (`CText/Direct`); genStr and genStrLit (`CText/Strs`) |

## Comparison of the model with the program

The repository keeps the output of the compiler for its test programs (Test, 53 programs, for vm2tac.c and vm2vm.c).
`Verif/Conf/Driver.lean` joins the models of all parts into a function `asm` from source bytes to text, and
`tools/conform.sh /repo` compares it with these files: for all programs both texts are the same character for character
(with `#0x00ff` read as `#255`, see `Shown`). `Verif/Conf/Tests*.lean` repeat this for 15 programs with the kernel.
The text of vm2ic.c (`Conf/Ic`) is the same for all programs but t120, where a variable is declared twice (disagreement 33); 7 programs are
repeated with the kernel (`Conf/Tests4`). These are tests of the model, not proofs; no theorem depends
on them.

The script also counts how many functions of real programs meet the decidable conditions of C67 (`tameS`, `needS`, `mulS`, `fitS`): 546 of
566 functions of the library and of the compiler written in C--. The other 20 use && or || as a value.

## Not modelled

Makefiles, shell wrappers, assembler and linker, the functions of wrapper.h and
wrapper.c that only hand on to C (fputs, perror, setenv and the like), vm2h8300hn.c, interrupt
functions beyond their frame code, the TacOS kernel behind `wrap-syslib.cmm` (system calls are
parameters with arbitrary results), signal handling.

## Properties

The statement of each property is in `properties.jsonl`; the theorems are in
`lean/Verif/Props/Cnn.lean`. Library C01–C26, C58; lexer C27–C33; parser C34–C39, C70–C73; optimiser
C40–C43, C56; code generator C44–C48, C57; vm2tac C49–C54, C59, C60; whole compiler C61–C69, C74; C translator C55, C75–C80; arguments C81; fseek C82; readDir C83; C library C84, C86 to C89; system calls with paths C85. Shapes of the
proofs:

* Library functions: refinement of the transcribed loops to a specification on lists of
  bytes, with a frame condition. C07–C09: invariant over histories of calls and client
  writes, the concrete free list represents an ordered list of blocks tiling the pool. C13: the
  step is linear over GF(2)^16, order by repeated squaring. C20–C23: invariants over operation
  sequences. C24: three passes, each refined to component lists.
* Lexer: every token function on every continuation; C27 characterises the accepted texts.
* Parser: `Sound` (what is read is derivable and typed) and `Complete` (every writing with
  enough parentheses is read as its tree).
* Optimiser: semantic preservation by induction. Conditions: `Good` (no division in a dividend,
  an operation constantly equal to its annihilator has no effect, divisors not constantly 0).
* Code generator: simulation by induction on trees and on executions, labels by interval
  invariants. Conditions: `Wf` (what the parser builds; boolean operands in value position are
  0 or 1), `NoBC` for bodies outside loops. Accesses and divisions may be undefined (`World.ok`): then neither the
  tree nor the stack code has a result.
* vm2tac: `Disc` (stack discipline of the caller), `Rel` (each virtual stack entry represents
  the value on the abstract stack), one lemma per instruction. `Safe` names, per step, the
  defects below; C50_statement gives conditions on the instructions. C59: simulation of the stack machine
  by the printed lines with jumps; its conditions `Fits` are decided by running the translator on the code. C60: whole programs on
  the machine with CALL and RET and one stack, by induction on the depth of calls, over C59 for the body and C54 for
  the frame; the result is specified by `ev`, which knows neither frames nor registers.
* C61: C46 and C60 composed. `trail` (Verif/Tac/Walk.lean) shows by induction on trees that generated code keeps `Disc`
  and needs at most `needS` stack entries; `evS` is the meaning of a program of trees.
* C62: each function of vm2tac.c succeeds on a state that keeps the books (`W`, C49) and has room (Verif/Tac/Live.lean);
  the walk of C61 gives the room, a second walk (`MulOk`) shows which instruction can precede a multiplication.
* C63: `view` (Verif/Tac/View.lean) is an abstract interpretation of vm2tac.c: for each entry of the virtual stack it knows
  only what its value still depends on (`D`: nothing, globals, frame, one register, memory through a register), and which
  entry the flags may belong to. `views_fits`: what it accepts meets `Fits`. Verif/Tac/View2.lean shows by induction on trees
  that it accepts the code of every tree that meets `fitE`, a condition with the list of pending values as parameter.
* C64: the parser (C34–C39) and the back end (C61–C63) joined. Verif/Parse/Ready.lean shows that a well-typed expression
  (`Ty`, Verif/Parse/Grammar.lean) is one the code generator can translate (`okE`); Ready2 that all expressions of a body
  were read at one of the points of the function; Ready3 and Ready4 carry what the name table says from a function to the
  end of the program; Ren.lean shows that the code generator does not depend on how names are numbered. Entries of the name
  table become labels (prefix and name, vm2tac.c getPref), since a prototype and its definition are two entries. Conditions
  that the parser does not check are in `Fair` and `tame`. Interrupt functions are parsed but excluded from `C64_code`; data
  of global variables and strings is not part of the lines (C57 is about data), only the number of labels strings take.
* C65: C64 with the optimiser. Verif/Opt/Keep.lean and Refine.lean follow every pass of optree.c for the partial meaning
  `evalLR` (C43 is for the total one) and show that what an expression does, the optimised one does, if no call or assignment
  is dropped; RefineS.lean lifts this to statements, OkKeep.lean shows that the conditions of the code generator survive,
  Verif/Parse/OptRen.lean that the optimiser commutes with the renaming of C64. The compiled program is compared with the
  trees before the optimiser (`Out.written`). `Opt.mild` is the decidable condition on these trees; `C65_lost_false` shows
  that something like it is needed.
* C66: characters. Verif/Tac/Text.lean has the printf formats of vm2tac.c (`Line.text`; no text if an index is outside `regs`,
  `jcc` or the name table) and, separately, a reader of assembler text (`assemble`): lines, fields, operands, canonical
  decimal numbers. `assemble_printed` is the round trip; Verif/Tac/LineOk.lean is the invariant of the virtual stack by
  which every line has existing registers and jumps. Names are numbers `id` of labels as in C64, `N` gives the symbol back.
* C67: the same from the bytes of the source. Verif/Parse/Front.lean is getTok with lxGetVal and lxGetStr (`tok`) and the compiler up
  to the code generator on bytes (`accept`). `tokOf` says independently what a lexeme is for the parser; C67_tokens compares the two.
  Verif/Parse/Names.lean follows names through all functions of the parser (`names_written`), which makes the condition of C66
  on the characters of names a theorem (C67_names).
* C68: the other back end. Verif/Tac/VmText.lean has the characters of vm2vm.c, a reader (mnemonics in a separate table) and the stack
  machine of doc/vm.tex with calls (`VStep`: one operand stack, activations with their own variables, one register for results).
  `Does` is the claim about a call, `Calls` says it for all calls that return. The memory has no stack in it (`noStack`), so addresses
  are not restricted; divisions are still those of `okDiv`, because the meaning of the trees is the one of C61. Partial because of
  `tameS`. C68_label_false is disagreement 28 for this back end.
* C69: data. The parser hands a tree of initial values with the name table and the label counter to the code generator (`Out.data`).
  Verif/Parse/DataTree.lean shows which trees getInit builds (`Form`) and that one for which genData reports no error is well formed
  (`init_wf`, the hypothesis of C57); a program for which genData does report an error is rejected by the model, as the C program
  exits. Verif/Tac/DataText.lean has the characters and a reader with its own rules; Verif/Parse/DataCode.lean carries names through
  genData. Names are numbers `id` of labels as in C66. C69_addr_false is disagreement 30.
* C70: initial values. `Says` (Verif/Parse/InitSyn.lean) is a grammar with the trees it stands for, on top of the grammar of
  expressions of C36; C70 is soundness and completeness of getInit against it. A constant (`Cst`) is an expression that the optimiser
  reduces to a constant; C70_number says what its value is by the meaning of the tree before optimisation. C70_variable joins this
  with C57: the data of a variable represent what is written behind `=`.
* C71: the definitions of a program. `Wanted` says which definitions a name of each scope must have; `Out.defd` reads the name and
  kind off what is handed to the code generator. Proved by an invariant over the declarations (`sto_inv`, with the uniqueness of
  names from C35). That no name is defined twice is false in one way only: `int v; int v = 3;` gives `WS` and `DW` (disagreement 32).
* C72: statements. `Syn` (Verif/Parse/StatSyn.lean) is a grammar over tokens with the tree of each form and the change of names and
  slots (`Spot`); the flag of `NT.stat` says that a statement ends with an `if` without `else`, and the then part before `else` must
  be closed. Soundness by partial correctness of the parser functions, completeness by induction over the grammar, unambiguity from
  both.
* C73: programs. `Prog` (Verif/Parse/ProgSyn.lean) is a grammar of declarations over tokens: it names neither parser functions nor
  parser states, only names known (`Spot`), the things made (`Thing`), the grammars of C70 and C72 for values and bodies, and the optimiser
  and code generator where the parser calls them (optS, genFunc and genData for the next free label). C73 is an equivalence with getSrc;
  C73_split says that a declaration is a prefix code. Found while writing it down: a comma may end a parameter list and `...` may stand
  alone; the entry of a structure or typedef keeps the dimension and count left by the declaration before it (no effect).
* C74: vm2ic.c. `readIc` (Verif/Tac/IcText.lean) is a reader of lines `f(n, ...)`; round trip for lists of calls (C74), for programs in parts
  (C74_parts), uniqueness (C74_determined), agreement with vm2vm.c (C74_agree), meaning by the machine of C68 (C74_trees, C74_program,
  C74_optimised), data (C74_data, C74_string).
* C75: initial values in cCode.c. The specification (`Correct`, `CellOk`, `Means` in Verif/CText/Data.lean) gives C types to the printed
  definitions; induction over the grammar of C70 (C75_partial, C75_accepted). C75_stops: with addrof the translator stops. An expression of a
  basic type is never optimised to a string (C75_constant). The members of a structure are the entries behind it with scope ScVOID, as for
  getStructInit0; genStruc counts them by ntGetCnt.
* C76: scopes. The specification is a resolver for C (`resolve`, `resolveFn` in Verif/CText/Scope.lean and ScopeFn.lean) that numbers the
  declarations in the order of the text; a local variable of the source has the index of its entry as number, because every declaration enters
  one entry and leaving a block keeps it. Trees with SyVAR nodes (`VS`, `SynV` in Verif/CText/Tree.lean) are the grammar of C72 again (C76_tree).
  Induction over that grammar; with C55 the result holds for every reading of the text as C (C76_text_partial). The tree is the one before the
  optimiser.
* C77: types of C. The specification (`HasTy`, `Fits`, `Gets` in Verif/CText/CType.lean, `Wt` in CTypeStm.lean, `WtFn` in CTypeFn.lean) gives
  types to C expressions without casts and says which statements and functions are well typed behind given declarations; it knows nothing of
  C--. `DeclsOk` relates the declarations in force to a name table: every entry is declared with the type cCode.c prints for it. The typing
  relation of C37 (`manual`) and the grammar of C72 with types (`SynT`) are the hypotheses; induction over both. The C declarations
  change with blocks and parameters, `Inv` says that they keep agreeing with the table. Left out: declarations of structures (they
  are the members `M`), initial values of globals (C75), the tree after the optimiser.
* C78: files. The specification (`CUnit`, `CUnit.Step` in Verif/CText/Unit.lean) keeps what a C compiler has seen: names with type and linkage, members,
  type names, names that have a body or a value. Programs are those of C73 with the typed bodies of C77 (`ProgT`). Invariant over the
  declarations (`FInv`): what C has seen agrees with the name table; `FInv.add` for a new name, `FInv.twins` for a name that becomes a definition.
  The text (`pfile`) is read by a grammar of files (`FileT` in Verif/CText/UnitText.lean) in which a structure makes its name a type for what follows;
  the reading is unique. Values are left out of the text (C75), and so are the macros of strings.
  C78_program_partial has its conditions on the tokens of the source (`ToksOk`: names are identifiers of C, constants are not negative) instead of on the
  text; Verif/CText/Words.lean and WordsFile.lean derive the conditions of C55 on expressions, statements, functions and files from the typing.
* C79: headers of the system. A program is a tree of files (`Parts`); `cpp` says which directives the preprocessor writes (line 1 where a file begins, a later line
  behind an `#include`; this is trusted, flags and the lines `<built-in>` are left out). `Contents` is the specification. Invariant: inhibitOut says
  whether the present file is a header of the system. Directives inside of declarations are skipped by `tok`. Strings (genStr) and values are not in it.
* C80: strings. `Num` relates the tokens of the source, the labels in the tree and the counter of labels (induction over the typed grammar of C72 with declarations,
  `SynV`); `found` says which words of the text are macros (induction over trees). The specification is the replacement of macros (`expand`, C11 6.10.3, for macros that are
  one string) and reading `#define` lines (`Defs`). Without `_RTC` and without the optimiser (which may remove a string whose macro is printed all the same); strings in values of global variables
  are not in it. Labels begin with 1 as in the vm version, with 0 in cCode.c.
* C81: decision logic of main() against a grammar of arguments (`Line`), and setFname. Model in Verif/Lex/Main.lean; opening the file is not modelled.
* C82: refinement of streams with fseek to a file with a place (`Serves`, `Tells` for input; `image`, `direct` for output). The kernel reads and
  writes at the place of the last seek of the stream (`place`); for append mode this means a kernel that appends only at opening.
* C83: refinement of readDir to a decoder of FAT directories (`listing`). Model in Verif/Lib/ReadDir.lean; reads are a list of results.
* C84: decision logic of number output in C against `Nat.toDigits` in a field (`cfield`), and the round trip of fsize and _fseek.
* C85: refinement of the wrappers of system calls to two outcomes (asked once with the path of C24, or failed), and an invariant of the buffers in use (`live`).
* C86: refinement of print to the list of pieces of a format (`spell`, `takes`, `prints`), by induction over the pieces, and a proof that pieces and invalid conversions cover all formats (`Covered`); C86_left_false is disagreement 50 for whole formats.
* C87: refinement of main to the strings given (`Sees`), by induction over the loops, and the round trip of %x and htoi. C87_overflow_false: from 2^31 on htoi overflows.
* C88: decision logic of allocation and check against `Safe` (indices, bounds, no overlap).
* C89: decision logic of absPath, an invariant over calls of getenv (one block in use), and a loop that reads while feof is false. fgetc, ungetc, strncpy and realpath of C are as the C standard says.
* C translator: tokens of the printed text by longest match, then a grammar proved unambiguous
  with a reader.

Where a property is false of the code, the negation is proved with a witness (`_false`), and a
positive theorem (`_partial`) says what does hold. `MANIFEST.json` says what is missing.

## Disagreements between code and intended behaviour

Proved as negations unless marked (r), which are readings of the code recorded here only.

1. C06 `strStr` loops `i < d`, so an occurrence at the end of `s1` is missed (also `strStr(s,s)` = -1).
2. C10 `malloc(65531..65535)`: `s = (siz+5)&~1` wraps to 0 (or small).
3. C11 `calloc`: `n*s` wraps; the clearing loop compares signed.
4. C15 `_div32` leaves the remainder in the high word and loses quotient bits.
5. C18 `%ld`: wrong for values ≥ 655360000; wrong when left justified; destroys its argument.
6. C23 `setNEnv` never looks at `overwrite`. (r) `setEnv("A", getEnv("A"), true)` reads freed memory.
7. C26 stack overflow exits with -25 (`EMEMVIO`), not `EUSTK` (-26).
8. C32 one-byte overrun of the lexer buffer. C33 raw bytes alias token codes.
9. C40/C42 `x/c1/c2` is rewritten to `x/(c1*c2)` modulo 65536 and `(x/y)/c` to `(x/c)/y`.
10. C41 annihilators drop side effects.
11. C43 `do S while(false)` becomes `S` although `S` may contain break/continue; a bare break is
    then translated to a jump to label .L0 (r).
12. C51 a spill is emitted on only one path of a short-circuit expression (`C51_skip_false`); an elided
    comparison leaves the spilled operand on the hardware stack (`C51_drop_false`).
13. C52 `x/2^n` by `SHRA` and `x%2^n` by `AND` for negative `x`: neither signed truncated nor
    unsigned division.
14. C53 flags are considered valid for a value that has been materialised from them; `x-y<0` after
    overflow.
15. C55 `do` printed without a separator; `--` for a minus sign before a negative constant; C keywords
    as names; empty lists and declarations as bodies. (r) user names `_cmm_0S` collide with labels.
16. C03 the manual says strNcpy does not terminate when the source is too long; the code always terminates.
17. doc/vm.tex gives the operands of SUB, DIV, GT, LT in the opposite order of what vmCode.c emits (r);
    the model follows the code.
18. C17 zero padding of negative numbers puts zeros before the sign; with a signed DIV, `%x` of a negative
    number is wrong. (r) widths ≥ 32768 wrap negative, strings ≥ 32768 get spurious padding.
19. C21 a console read of 0 bytes delivers a stale byte; `fgets` with n = 0 writes `str[0]`; (r) n = -32768
    wraps to 32767.
20. C22 `fputs("")` and `fgets` with n ≤ 1 do not check the stream. (r) `fopen` leaks the file
    descriptor when no slot is free; `fseek` ignores the result of the flush (C82_error_false); `sameFname` is never called.
21. C25 absPath writes "/" before it looks at bufSiz. (r) length sums overflow for paths ≥ 32767 bytes; a
    relative PWD gives a relative result; `chDir` checks the attribute of the parent directory, so a last
    component that does not exist or is not a directory is accepted.
22. C37 `==` between `char[]` and `int[]` is accepted, results of void functions may be compared, typedef
    names get the field count of an unrelated structure. (r) a trailing comma in a parameter list is
    accepted; an index must be exactly int; `{return 1;}` as last statement is rejected while a declaration
    after the final return is allowed; `setFname` reads fname[129] for a long name.
23. C50 `a - (a = 5)`: a variable on the virtual stack is read after the store.
24. (r) lexer: `\a` etc. in strings are passed to the C compiler; getEsc accepts `\X`, getStr only `\x`;
    control characters after a backslash are not checked.
25. (r) vm2tac: vmDwName uses topAux; `(a=1)+(a=2)` on register variables gives 4; flgPtr survives calls;
    vmPop of a spilled entry emits no POP.
26. C62 an expression that needs more than 20 stack entries stops the compiler; so does `(x, 2) * ord(a < b)`: vmMul
    moves the entry of the comparison but not the note of which entry the flags belong to.
27. C63_false: `int f() { int a; return (a = 1) + (a = 2); }` returns 4: whole program, trees against lines.
28. C66_label_false, C66_stkChk_false: a global variable or function `L5` that is not public is printed as `.L5` like the
    label 5 of the compiler (`T5` like `.T5`); a public function `_stkChk` is printed like the stack check.
29. C67_byte_false: `char[] a = "b c", ?;` with the byte 202 for `?` is accepted and declares a variable `b c` (the whole-compiler
    form of C33_false).
30. C69_addr_false: vm2tac.c:881-886 vmDwName prints the name whose index is stkAux[stkPtr] and ignores its argument; outside of
    functions the stack is empty. `int v = addrof(f);` is translated wrongly (vm2vm.c is right).
31. C70_constant_false: `int v = f() * 0;` is accepted, the optimiser removes the call before the parser tests
    for a constant.
32. C71_twice_false: `int v; int v = 3;` defines `v` twice, first as room (`.v WS 1`), later with its value (`.v DW 3`); the
    project's linker is expected to join the two (the golden output of Test t120 has both).
33. C74_index_false: vm2ic.c prints indices of the name table, and for `int x; int x=1; int f() { return x; }` the definition of `x` with its
    value is `vmNam(1)`, the use of `x` is `vmLdGlb(0)` and the definition of `f` is `vmNam(1)` too: the entry of a second declaration is
    removed only after genData (parser.c:1180-1186). The output kept for t120 has `vmNam(2)` for both `x` and `a`.
34. C75_addr_false: `int f(); int[] a = {addrof(f)};` (also `array(addrof(f))`) is accepted by the parser and translated by vmCode.c, but
    printList1 (cCode.c:545) ends with an internal error.
35. C75_void_false: `void[] x = array(5);` is accepted, and the C translator prints `static void _cmm_0T[5];`, which is not C.
36. C76_false: a block that is a single declaration without value keeps no braces (parser.c marks only SySEMI nodes as blocks), so the C text
    of `int x; void f() { { int x; } x = 1; }` assigns to the local `x`. C76_redeclared_false: `{ int a; } { int a; }` becomes two declarations of
    `a` in one block, which is not C.
37. C76_string_false: a variable may have the label of a string as its name: `char[] _cmm_1S = "a";` becomes `(_cmm_1S=_cmm_1S);`. With `_RTC`
    the variable hides the string; without it strings are macros (cCode.c:618-624) and the string is put in the place of the variable.
38. C77_voids_false: `void[][]` takes every array (parser.c), but `void **` does not take `int *`.
39. C77_compare_false, C77_void_false: `c == a` with `char[] c; int[] a;` and `f() == f()` with a void function are accepted and have no type in C.
40. C77_null_false: `a = (f(), null)` is printed as `(a=(f(),0))`; behind a comma 0 is an int and no null pointer constant.
41. C55_dots_false: a function with `...` as its only parameter is printed as `f(...)`, which is no head of a function in C11.
42. C78_typedef_false: `typedef X; X a;` is accepted and `static X *a;` is printed, but nothing for the typedef (parser.c:1226-1231). The type must come
    from a C header, as FILE does in Test/c--/t500.cmm.
43. C79_header_false: `#include <sys/fs.hmm>` is printed as `#include <fs.h>` (cCode.c:659 takes the base name), the directory is lost. include/syslib.hmm:40-41
    includes sys/fs.hmm and sys/tty.hmm; sys/fs.hmm and fs.hmm are not told apart (C79_same).
44. C80_name_false: names like labels of strings are allowed: a parameter `_cmm_2S` is replaced by the macro of the second string (labels from 1; from 0 in cCode.c).
45. C81_order_false: options are accepted in one order only (-O/-O1, -O0, -K), which is not the one of the usage line (main.c:44): `-O0 -O x.cmm` prints the usage, `-O0 -O` reads a file `-O`.
46. C81_name_false: setFname reads fname[StrMAX+1], behind the array, for names of more than StrMAX bytes (util.c:58); error() is called only if that byte is not zero.
    Otherwise fname has no end and error messages print what follows.
47. C83_again_false: after the end mark readDir returns 0, but the next call goes on behind it. C83_short_false: a read of fewer than 32 bytes leaves bytes of
    the entry before in the buffer, which are then taken for the new one.
48. C84_count_false: putC of printf.c counts characters for which fputc returns 0, but the fputc of C returns the character: printf returns 0.
49. C84_unsigned_false: numLen divides a signed int, so `%8x` and `%8o` of ints from 2^31 on are too wide. C84_min_false: `-x` overflows for the smallest int.
50. C84_long_false: `%-ld` hands the left side on to the parts of the number: inner zeros are missing (100000005 is printed as `15`).
51. C84_seek_false: _fseek extends the sign of the lower word: offsets with bit 31 set are negative; lToL does not.
52. C85_long_false: the length of a path is checked before it is made canonical: 39 times `/.` before `/a` is refused as invalid though `/a` is what it names.
53. C88_size_false: the parameter of _mAlloc is an int: of an array of 2^30 ints (or more) only the rest modulo 2^32 is allocated, and the run-time check does not notice. C88_negative_false: an array of -1 ints is allocated with 0 bytes.
54. C89_path_false: absPath of wrapper.h reports success for a path that does not fit and stores it without NUL. C89_stale_false: a string of getenv is freed when the next variable is found.

## Axioms per theorem

Output of `#print axioms` for the theorems in `MANIFEST.json`, grouped.

* none: `Cmm.Stdlib.C13_srand`, `Cmm.CLib.C87_overflow_false`, `Cmm.CLib.C88_null`

* propext: `Cmm.Stdio.C21_console_false`, `Cmm.Err.C26_messages`, `Cmm.Err.C26_stack_overflow_false`, `Cmm.Opt.C42_false`, `Cmm.Tac.C62_deep_false`, `Cmm.Tac.C62_mul_false`, `Cmm.Tac.C63_pure`, `Cmm.CText.C76_tree`, `Cmm.CText.C79_header_false`, `Cmm.CText.C79_same`, `Cmm.Lex.C81_name_false`, `Cmm.Stdio.C82_error_false`, `Cmm.CLib.C88_negative_false`

* propext, Classical.choice, Quot.sound: `Cmm.Ctype.C01_isDigit`, `Cmm.Ctype.C01_isUpper`, `Cmm.Ctype.C01_isLower`, `Cmm.Ctype.C01_isXdigit`, `Cmm.Ctype.C01_isAlpha`, `Cmm.Ctype.C01_isAlnum`, `Cmm.Ctype.C01_isPrint`, `Cmm.Ctype.C01_isSpace`, `Cmm.Ctype.C01_toLower`, `Cmm.Ctype.C01_toUpper`, `Cmm.Ctype.C01_toLower_idem`, `Cmm.Ctype.C01_toUpper_idem`, `Cmm.Ctype.C01_case_roundtrip`, `Cmm.Ctype.C01_toLower_alpha`, `Cmm.Str.C02_strLen`, `Cmm.Str.C02_strCpy`, `Cmm.Str.C02_strCat`, `Cmm.Str.C02_strNcat`, `Cmm.Str.C03_strNcpy`, `Cmm.Str.C04_strCmp`, `Cmm.Str.C04_strCmp_eq`, `Cmm.Str.C04_strCmp_antisymm`, `Cmm.Str.C04_strCmp_trans`, `Cmm.Str.C04_strNcmp`, `Cmm.Str.C05_strChr`, `Cmm.Str.C05_strRchr`, `Cmm.Str.C06_strStr_partial`, `Cmm.Str.C06_strStr_nonsuffix`, `Cmm.Str.C06_strStr_false`, `Cmm.Str.C06_strStr_misses_suffix`, `Cmm.Heap.C07_live`, `Cmm.Heap.C07_free_apart`, `Cmm.Heap.C07_malloc`, `Cmm.Heap.C07_free`, `Cmm.Heap.C07_malloc_succeeds`, `Cmm.Heap.C08_sorted`, `Cmm.Heap.C08_all_freed`, `Cmm.Heap.C08_no_leak`, `Cmm.Heap.C09_unallocated`, `Cmm.Heap.C09_double_free`, `Cmm.Heap.C10_partial`, `Cmm.Heap.C10_too_large`, `Cmm.Heap.C10_wraps`, `Cmm.Heap.C10_then_hangs`, `Cmm.Heap.C10_false`, `Cmm.Heap.C10_iMalloc_false`, `Cmm.Heap.C11_calloc_partial`, `Cmm.Heap.C11_not_cleared`, `Cmm.Heap.C11_false`, `Cmm.Heap.C11_product_wraps`, `Cmm.Stdlib.C12_atoi`, `Cmm.Stdlib.C12_htoi`, `Cmm.Stdlib.C12_atoi_decimal`, `Cmm.Stdlib.C13_nonzero`, `Cmm.Stdlib.C13_period`, `Cmm.Stdlib.C13_all_values`, `Cmm.Crt0.C14_mul32`, `Cmm.Crt0.C15_mod32_partial`, `Cmm.Crt0.C15_div32_partial`, `Cmm.Crt0.C15_div32_exact_iff`, `Cmm.Crt0.C16_uCmp`, `Cmm.Crt0.C16_uCmp_lt`, `Cmm.Crt0.C16_uCmp_le`, `Cmm.Printf.C17_d_partial`, `Cmm.Printf.C17_o`, `Cmm.Printf.C17_x`, `Cmm.Printf.C17_d_reads`, `Cmm.Printf.C17_u_reads`, `Cmm.Printf.C17_d_false`, `Cmm.Printf.C17_x_signed_false`, `Cmm.Printf.C18_exact`, `Cmm.Printf.C18_partial`, `Cmm.Printf.C18_left_partial`, `Cmm.Printf.C18_big_false`, `Cmm.Printf.C18_destroys`, `Cmm.Printf.C18_left_false`, `Cmm.Printf.C19_partial`, `Cmm.Stdio.C20`, `Cmm.Stdio.C20_fflush`, `Cmm.Stdio.C20_fclose`, `Cmm.Stdio.C20_prefix`, `Cmm.Stdio.C20_exit`, `Cmm.Stdio.C20_total`, `Cmm.Stdio.C21_feof`, `Cmm.Stdio.C21_fgetc`, `Cmm.Stdio.C21_console`, `Cmm.Stdio.C21_fgets`, `Cmm.Stdio.C21_partial`, `Cmm.Stdio.C21_fopen`, `Cmm.Stdio.C21_zero_false`, `Cmm.Stdio.C22_partial`, `Cmm.Stdio.C22_accepts`, `Cmm.Stdio.C22_full`, `Cmm.Stdio.C22_fputs_false`, `Cmm.Stdio.C22_fgets_false`, `Cmm.Environ.C23`, `Cmm.Environ.C23_setEnv`, `Cmm.Environ.C23_putEnv`, `Cmm.Environ.C23_unsetEnv`, `Cmm.Environ.C23_setEnv_bad`, `Cmm.Environ.C23_putEnv_bad`, `Cmm.Environ.C23_false`, `Cmm.Environ.C24`, `Cmm.Environ.C24_success`, `Cmm.Environ.C24_asked`, `Cmm.Environ.C25_partial`, `Cmm.Environ.C25_false`, `Cmm.Err.C26_in_bounds`, `Cmm.Err.C26_entry`, `Cmm.Lex.C27_progress`, `Cmm.Lex.C27_layout`, `Cmm.Lex.C27_accepted`, `Cmm.Lex.C27`, `Cmm.Lex.C27_insert`, `Cmm.Lex.C28_dec`, `Cmm.Lex.C28_oct`, `Cmm.Lex.C28_hex`, `Cmm.Lex.C28_decimal`, `Cmm.Lex.C29`, `Cmm.Lex.C30`, `Cmm.Lex.C31_string`, `Cmm.Lex.C31_accepted`, `Cmm.Lex.C31_char`, `Cmm.Lex.C32_overflow`, `Cmm.Lex.C32_partial`, `Cmm.Lex.C32_false`, `Cmm.Lex.C33_false`, `Cmm.Lex.C33_partial`, `Cmm.Lex.C33_printable_partial`, `Cmm.Parse.C34_lookup`, `Cmm.Parse.C34_block`, `Cmm.Parse.C34_function`, `Cmm.Parse.C34_parser`, `Cmm.Parse.C34_stat`, `Cmm.Parse.C34_decl`, `Cmm.Parse.C35_table`, `Cmm.Parse.C35`, `Cmm.Parse.C35_globals`, `Cmm.Parse.C36_round_trip`, `Cmm.Parse.C36_minimal`, `Cmm.Parse.C36_unambiguous`, `Cmm.Parse.C37_accepted_partial`, `Cmm.Parse.C37_exact_partial`, `Cmm.Parse.C37_type_unique`, `Cmm.Parse.C37_arrays_false`, `Cmm.Parse.C37_void_false`, `Cmm.Parse.C37_typedef_false`, `Cmm.Parse.C38`, `Cmm.Parse.C38_exec`, `Cmm.Parse.C38_body`, `Cmm.Parse.C38_optimized_partial`, `Cmm.Parse.C38_optimized_false`, `Cmm.Parse.C39`, `Cmm.Opt.C40_partial`, `Cmm.Opt.C41_partial`, `Cmm.Opt.C42_partial`, `Cmm.Opt.C43_partial`, `Cmm.Gen.C44_value`, `Cmm.Gen.C44_diverges`, `Cmm.Gen.C44_effect`, `Cmm.Gen.C44_permitted`, `Cmm.Gen.C45_cond`, `Cmm.Gen.C45_value`, `Cmm.Gen.C45_exists`, `Cmm.Gen.C46_statement`, `Cmm.Gen.C46_function`, `Cmm.Gen.C47_function`, `Cmm.Gen.C47_program`, `Cmm.Gen.C47_deterministic`, `Cmm.Gen.C48_inside`, `Cmm.Gen.C48_distinct`, `Cmm.Gen.C48_area`, `Cmm.Gen.C48_count`, `Cmm.Gen.C48_labels`, `Cmm.Tac.C49_books`, `Cmm.Tac.C49_result`, `Cmm.Tac.C50_partial`, `Cmm.Tac.C50_statement`, `Cmm.Tac.C50_return`, `Cmm.Tac.C50_lazy_false`, `Cmm.Tac.C51_text`, `Cmm.Tac.C51_exact`, `Cmm.Tac.C51_partial`, `Cmm.Tac.C51_converse`, `Cmm.Tac.C51_straight`, `Cmm.Tac.C52_isPower2`, `Cmm.Tac.C52_div_partial`, `Cmm.Tac.C52_mod_partial`, `Cmm.Tac.C52_div_false`, `Cmm.Tac.C52_vmMul`, `Cmm.Tac.C52_vmDiv_partial`, `Cmm.Tac.C52_vmMod_partial`, `Cmm.Tac.C52_vmMul_left`, `Cmm.Tac.C53_neg`, `Cmm.Tac.C53_swap`, `Cmm.Tac.C53_jump`, `Cmm.Tac.C53_boolJmp`, `Cmm.Tac.C53_overflow_false`, `Cmm.Tac.C53_tested_partial`, `Cmm.Tac.C54`, `Cmm.Tac.C54_kernel`, `Cmm.Tac.C54_interrupt`, `Cmm.CText.C55_expr_partial`, `Cmm.CText.C55_stm_partial`, `Cmm.CText.C55_fn_partial`, `Cmm.CText.C55_proto_partial`, `Cmm.CText.C55_inj_partial`, `Cmm.CText.C55_dots_false`, `Cmm.CText.C55_do_reads`, `Cmm.CText.C55_minus_false`, `Cmm.CText.C55_neg_false`, `Cmm.CText.C55_name_false`, `Cmm.CText.C55_empty_false`, `Cmm.CText.C55_decl_false`, `Cmm.Gen.C57_data`, `Cmm.Gen.C57_labels`, `Cmm.Stdio.C58`, `Cmm.Stdio.C58_fprintf`, `Cmm.Stdio.C58_printf`, `Cmm.Tac.C59`, `Cmm.Tac.C59_end`, `Cmm.Tac.C59_return`, `Cmm.Tac.C59_labels`, `Cmm.Tac.C59_only`, `Cmm.Tac.C60_ev_iff`, `Cmm.Tac.C60`, `Cmm.Tac.C60_text`, `Cmm.Tac.C60_definite`, `Cmm.Tac.C61_ev_iff`, `Cmm.Tac.C61_stack_code`, `Cmm.Tac.C61_partial`, `Cmm.Tac.C61_order`, `Cmm.Tac.C61_left_to_right_partial`, `Cmm.Tac.C61_definite`, `Cmm.Tac.C62_function`, `Cmm.Tac.C62_partial`, `Cmm.Tac.C62_correct_partial`, `Cmm.Tac.C62_bound`, `Cmm.Tac.C62_deep`, `Cmm.Tac.C63_fits`, `Cmm.Tac.C63_fitsAll`, `Cmm.Tac.C63`, `Cmm.Tac.C63_left_to_right`, `Cmm.Tac.C63_false`, `Cmm.Parse.C64_sound`, `Cmm.Parse.C64_code`, `Cmm.Parse.C64_once`, `Cmm.Parse.C64_distinct`, `Cmm.Parse.C64_args`, `Cmm.Parse.C64`, `Cmm.Parse.C64_left_to_right`, `Cmm.Tac.C65_program`, `Cmm.Tac.C65_lost_false`, `Cmm.Parse.C65_prog`, `Cmm.Parse.C65_sound`, `Cmm.Parse.C65`, `Cmm.Tac.C66_lines`, `Cmm.Tac.C66_text`, `Cmm.Parse.C66_writable`, `Cmm.Parse.C66`, `Cmm.Parse.C66_writable_opt`, `Cmm.Parse.C66_optimised`, `Cmm.Parse.C66_stkChk_false`, `Cmm.Parse.C67_tokens`, `Cmm.Parse.C67_layout`, `Cmm.Parse.C67_names`, `Cmm.Parse.C67`, `Cmm.Parse.C67_optimised`, `Cmm.Parse.C67_byte_false`, `Cmm.Tac.C68_trees`, `Cmm.Parse.C68`, `Cmm.Parse.C68_optimised`, `Cmm.Parse.C69_vm`, `Cmm.Parse.C69_tac`, `Cmm.Parse.C69_bss`, `Cmm.Parse.C69_string`, `Cmm.Parse.C69_addr_false`, `Cmm.Parse.C70`, `Cmm.Parse.C70_accepted`, `Cmm.Parse.C70_unambiguous`, `Cmm.Parse.C70_constant`, `Cmm.Parse.C70_number`, `Cmm.Parse.C70_variable`, `Cmm.Parse.C71`, `Cmm.Parse.C71_twice_partial`, `Cmm.Parse.C71_function`, `Cmm.Parse.C71_twice_false`, `Cmm.Parse.C72`, `Cmm.Parse.C72_accepted`, `Cmm.Parse.C72_closed`, `Cmm.Parse.C72_block`, `Cmm.Parse.C72_unambiguous`, `Cmm.Parse.C72_else`, `Cmm.Parse.C73`, `Cmm.Parse.C73_rejected`, `Cmm.Parse.C73_declaration`, `Cmm.Parse.C73_split`, `Cmm.Parse.C73_unambiguous`, `Cmm.Tac.C74`, `Cmm.Tac.C74_parts`, `Cmm.Tac.C74_determined`, `Cmm.Tac.C74_newline_false`, `Cmm.Tac.C74_code`, `Cmm.Tac.C74_agree`, `Cmm.Tac.C74_trees`, `Cmm.Parse.C74_program`, `Cmm.Parse.C74_optimised`, `Cmm.Parse.C74_data`, `Cmm.Parse.C74_string`, `Cmm.Parse.C74_index_false`, `Cmm.CText.C75_tree`, `Cmm.CText.C75_partial`, `Cmm.CText.C75_accepted`, `Cmm.CText.C75_addr_false`, `Cmm.CText.C76_statement_partial`, `Cmm.CText.C76_function_partial`, `Cmm.CText.C76_between`, `Cmm.CText.C76_text_partial`, `Cmm.CText.C76_false`, `Cmm.CText.C76_redeclared_false`, `Cmm.CText.C76_string_false`, `Cmm.CText.C77_expression_partial`, `Cmm.CText.C77_assign_partial`, `Cmm.CText.C77_text_partial`, `Cmm.CText.C77_statement_partial`, `Cmm.CText.C77_function_partial`, `Cmm.CText.C77_function_text_partial`, `Cmm.CText.C77_voids_false`, `Cmm.CText.C77_compare_false`, `Cmm.CText.C77_void_false`, `Cmm.CText.C77_null_false`, `Cmm.CText.C78_file_partial`, `Cmm.CText.C78_names_partial`, `Cmm.CText.C78_text_partial`, `Cmm.CText.C78_text_file_partial`, `Cmm.CText.C78_program_partial`, `Cmm.CText.C78_typedef_false`, `Cmm.CText.C79_run`, `Cmm.CText.C79`, `Cmm.CText.C79_file`, `Cmm.CText.C79_ends`, `Cmm.CText.C79_header_partial`, `Cmm.CText.C80_macros`, `Cmm.CText.C80_once`, `Cmm.CText.C80_expr`, `Cmm.CText.C80_statement`, `Cmm.CText.C80_function`, `Cmm.CText.C80_others`, `Cmm.CText.C80_name_false`, `Cmm.Lex.C81`, `Cmm.Lex.C81_usage`, `Cmm.Lex.C81_order_false`, `Cmm.Stdio.C82`, `Cmm.Stdio.C82_fopen`, `Cmm.Stdio.C82_refused`, `Cmm.Stdio.C82_total`, `Cmm.Stdio.C82_output`, `Cmm.Stdio.C82_output_total`, `Cmm.Stdio.C83`, `Cmm.CLib.C84_unsigned_partial`, `Cmm.CLib.C84_digits`, `Cmm.CLib.C84_unsigned_negative`, `Cmm.CLib.C84_signed`, `Cmm.CLib.C84_long_partial`, `Cmm.CLib.C84_seek_partial`, `Cmm.WrapSys.C85`, `Cmm.WrapSys.C85_leak`, `Cmm.WrapSys.C85_long_false`, `Cmm.CLib.C86_partial`, `Cmm.CLib.C86_bad`, `Cmm.CLib.C86_bad_long`, `Cmm.CLib.C86_formats`, `Cmm.CLib.C87`, `Cmm.CLib.C87_round`, `Cmm.CLib.C88_partial`

* propext, Quot.sound: `Cmm.Str.C04_bytesN_str`, `Cmm.Crt0.C14_add32`, `Cmm.Crt0.C14_add32_self`, `Cmm.Crt0.C14_sub32`, `Cmm.Crt0.C14_add_sub`, `Cmm.Crt0.C15_div32_false`, `Cmm.Crt0.C15_div32_false_large`, `Cmm.Crt0.C15_mod32_false`, `Cmm.Crt0.C15_mod32_false_large`, `Cmm.Stdio.C20_fopen`, `Cmm.Stdio.C20_std`, `Cmm.Environ.C24_canonical`, `Cmm.Err.C26_stkChk_partial`, `Cmm.Parse.C37_manual_partial`, `Cmm.Opt.C40_false`, `Cmm.Opt.C40_swap_false`, `Cmm.Opt.C41_log`, `Cmm.Opt.C41_false`, `Cmm.Opt.C43_false`, `Cmm.Opt.C43_loop_false`, `Cmm.Gen.C44_pure_guarded`, `Cmm.Gen.C44_pure`, `Cmm.Gen.C44_ordered_guarded`, `Cmm.Gen.C44_ordered`, `Cmm.Gen.C45_order`, `Cmm.Gen.C45_unique`, `Cmm.Gen.C46_ordered_guarded`, `Cmm.Gen.C46_ordered`, `Cmm.Tac.C51_skip_false`, `Cmm.Tac.C51_drop_false`, `Cmm.Tac.C52_mul`, `Cmm.Tac.C52_udiv_false`, `Cmm.Tac.C53_assigned_false`, `Cmm.Tac.C53_compared_false`, `Cmm.CText.C55_do_false`, `Cmm.Opt.C56_range`, `Cmm.Tac.C60_ret_unique`, `Cmm.Tac.C60_det`, `Cmm.Tac.C61_ret_unique`, `Cmm.Parse.C66_label_false`, `Cmm.Tac.C68_det`, `Cmm.Parse.C68_label_false`, `Cmm.Parse.C70_constant_false`, `Cmm.CText.C75_constant`, `Cmm.CText.C75_stops`, `Cmm.CText.C75_void_false`, `Cmm.CText.C76_index`, `Cmm.CText.C80_label`, `Cmm.Lex.C81_name_partial`, `Cmm.Lex.C81_directive`, `Cmm.Stdio.C83_unique`, `Cmm.Stdio.C83_again_false`, `Cmm.Stdio.C83_short_false`, `Cmm.CLib.C84_unsigned_false`, `Cmm.CLib.C84_min_false`, `Cmm.CLib.C84_long_false`, `Cmm.CLib.C84_count_false`, `Cmm.CLib.C84_seek_false`, `Cmm.CLib.C86_left_false`, `Cmm.CLib.C87_htoi`, `Cmm.CLib.C88_size_false`, `Cmm.CLib.C89_path_partial`, `Cmm.CLib.C89_path_false`, `Cmm.CLib.C89_getenv`, `Cmm.CLib.C89_stale_false`, `Cmm.CLib.C89_feof`, `Cmm.CLib.C89_loop`
