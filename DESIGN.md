# Formal model of #F (sharpF)

## What is being verified

`/repo` contains SFC, a compiler from a Scheme subset to C, written in itself
(`0.sf` … `7.sf`, `c.sf`), its C runtime (emitted as text by `6.sf` and by the
`%localdef`/`%definition` forms of `0.sf`), support libraries (`lib/*.sf`) and
interpreters (`int/*.sf`).  The Lean 4 project in `lean/` re-states the pieces
of that code listed below as total functions and proves the properties in
`properties.jsonl` about them.  Where the code does not have a property, the
negation is proved with a concrete witness (`cNN_…counterexample`), and the part
that does hold is proved under a theorem name ending in `_partial`.

## Trusted base

* The Lean 4.33.0 kernel, and the axioms each theorem depends on.  Every theorem
  depends on at most `propext`, `Classical.choice`, `Quot.sound`; there are no
  axioms of our own, no `sorry`, no `native_decide`/`bv_decide`, no
  `implemented_by`/`unsafe`.
* The faithfulness of the transcription: each Lean definition cites the file and
  lines it models and lists the simplifications made.
* C semantics assumed: two's complement, 8-bit `char`, 32-bit `int`, 64-bit
  `ptrdiff_t`/`long`/`size_t` (LP64), `malloc` either succeeds with fresh memory
  or the program exits (`cxm_cknull`), "C" locale for `<ctype.h>`; assertion
  failure and undefined behaviour are explicit outcomes where they matter.
* Recursion that Lean cannot see to terminate takes fuel.  Theorems either hold
  for every amount of fuel, or say that enough fuel exists.

`decide +kernel` is used for closed statements (examples, counterexamples) and
for quantifiers over finite tables (all 256 bytes, the width table), never in
place of a general proof.

## Layout

`lean/Verif/<Area>/Model.lean` – definitions with citations; `Spec.lean` –
what the statements refer to besides the model, where it needs definitions of
its own; `Props.lean` – the property theorems and the examples that show their
hypotheses can be met; other files – lemmas.  `MANIFEST.json` lists theorem
names per property.  `seeded/LOG.jsonl` lists the wrong programs tried against
the theorems.

## Properties

| Id | Area | What is modelled | How it is proved; what is left out |
|----|------|------------------|-----------------------------------|
| C01 | Imm | object words as 64-bit vectors; `mkimm`/`getimms`, `mkim0`/`getim0s` (24-bit and 30-bit layouts) | bit-vector lemmas. False for `(fxabs -8388608)`: counterexample |
| C02 | Imm | the type-test macros | case analysis on the low bits, all 64-bit words |
| C03 | Fx | `fx…` operators as C `int` expressions with an explicit overflow outcome | integer arithmetic. `fx*` may overflow the C `int`; `fxlognot` and `fxmin`/`fxmax` of 3 arguments do not expand and are not modelled |
| C04 | Fx | `fxquo/fxrem/fxmqu/fxmlo/fxdiv/fxmod` | uniqueness of division; `fxmqu` wrong for exact division with operands of different sign: counterexample |
| C05–C07 | Fx | loops of `fxgcd`, `fxexpt`/`fxpow`, `fxsqrt` | induction |
| C08 | Num | `fixnum->string`, `string->fixnum` with `strtol` | round trip by induction on digits |
| C09 | Symt | `internsym` with open addressing and table growth, any hash function | invariant over all histories of calls |
| C10, C11 | Lists | list primitives as heap transformers (`Seg`, `ListOf` relate addresses to lists) | tortoise/hare invariant; refinement to `List` |
| C12 | Equal | `isequal` on a heap of even, non-zero addresses with non-empty blocks | refinement to equality of unfolded trees; strings with NUL: counterexample |
| C13, C14 | Stab | `stabequal`/`stabcircular` with hash table, union-find and explicit stack (growth of `p->r` and allocation failure left out) | bisimulation up to equivalence; depth-first invariant |
| C15 | Equal | `ismemv`, `isassv`, `ismember`, `isassoc` | equivalence with generic search; NaN keys: counterexample |
| C16 | Cmp | `strcmp`-based comparison of counted strings | order lemmas; embedded NUL: counterexample |
| C17–C19 | Gc | word-addressed memory, `toheap2`, `relocate`, `finalize`, `cxm_hgc` | Cheney invariants, isomorphism of the reachable graph. `realloc` returns memory not in use; `size_t` is unbounded |
| C20 | Regs | `cxm_rgc`, `rreserve` | case analysis; the code reads beyond the register file when it shifts the window: counterexample |
| C21 | Wind | the tree of dynamic states, `dynamic-state-reroot!` | tree invariant, path lemma |
| C22 | Promise | promise cells of `0.sf` and `libl.sf` with re-entrant evaluation | invariant over event histories |
| C23 | Cbuf | `cbuf_t` with bounds-checked stores | refinement to a list; NUL in `get-output-string`: counterexample |
| C24 | App | `apphost`, argument counts, rest lists | list lemmas; `apply` of more than 1022 arguments: counterexample |
| C25, C27–C29, C51 | Reader | the reader of `1.sf` over character lists (lexer tables included), writer | round trip by mutual induction. Flonums, ports and procedures are not written; `#read` and `#.(…` are not among the tokens of C27; infinities and NaN as parts of complex numbers left out of C28. Counterexamples: −8388608, `+i`, leading empty line of a here-string, `(a . b . c)` |
| C26 | Width | `integer-representation-table` | lexicographic order on digit strings of equal length |
| C30, C38, C39 | Names | `symloc->var`, `c-mangle`, label assignment | injectivity, unique decodability |
| C31 | Macros | matcher and instantiator of `syntax-rules` (boxes left out; the reduced environment of a macro is identified with that of its definition) | structural induction |
| C32 | Vecs | `wrap-vecs`/`unwrap-vecs` | structural induction |
| C33 | Boxes | removal of assignments | simulation of the machine with cells by the machine with boxes |
| C34 | Cps | CPS conversion, `letcc`/`withcc` | simulation; a `withcc` operand is evaluated late: counterexample |
| C35 | Letrec | `fix-letrecs` | simulation that preserves the sequence of worlds. Operands classified as simple are evaluated before earlier assignments: counterexample. Left out: complex operands of `letrec`, simple operands other than procedures and constants |
| C36 | Beta, Fold | `beta-substitute`, `constant-fold` | simulations that preserve the sequence of worlds; types are a parameter (`Honest`). Counterexamples: copied procedures capture variables, dead `withcc` is removed, type assertions on global variables are trusted after assignment |
| C37 | Lift | `extra-vars`, `lambda-lift` | fixpoint argument with a termination measure; closedness |
| C40 | Moves | `cg-fast-goto?` and both move sequences (other code is opaque) | register-file semantics |
| C41 | Lists | `merge-by!`, `split-by!`, `sort-by!` on the heap | permutation, sortedness, stability |
| C42, C43 | Str | string utilities of `6.sf` | list lemmas; dots in directory names: counterexample |
| C44 | Lit | emission of string, symbol and character constants (the subset of `c-format` they use), C lexing of literals incl. trigraphs | round trip; NUL and trigraphs: counterexample |
| C45 | Interp | `scheme-compile`, `gen-*` of `ints.sf` | simulation between closures and an evaluator with named variables. Continuations, dynamic wind and most host primitives left out |
| C46 | Arity | arity annotations | arithmetic; counts of 1000 or more: counterexample |
| C47 | Core | `exp->free-vars` and its relatives | exactness against an inductive definition; agreement of evaluations |
| C48 | Sets | set utilities of `3.sf` | membership, `Nodup` |
| C49, C50 | Lit | `string-forest->string`, `cleanup-c-code!` with in-place edits | induction; loop invariant against a rewriting relation |
| C52 | Lift (Rel, Sim, Gen, Meaning) | `lambda-lift` on the machine of `Core/Machine` | simulation: a closure of the program corresponds to a closure that calls a label with the values of the extra variables; induction over expressions shows that `lift` produces related code |
| C53 | Cgen | `code-generate` (expressions, labels, closure entries) and a machine for the C code with registers, live counts and C temporaries | simulation between the two machines: what is in the registers is what the variables of the register environment are bound to; induction over expressions for values, tails and moves. Partial: refuted in general (findings 20, 21) |
| C54 | Reader.Strings | `subread-string`, `subread-char` and escapes | both directions, by induction over the literal and over the fuel of the loop, against an inductive definition of literals |
| C55 | Copy | the copy, fill, append, convert and map procedures for sequences, on a memory of sequences | invariants of the loops in both directions. Partial: with a short destination the backward loop writes out of bounds (finding 22) |
| C56 | Nary | macros and `%residual-…` procedures with any number of operands, as computations with effects; `map`, `for-each` | induction over the operands. Partial: comparisons skip operands inline (finding 23), checked fixnum operations group differently (finding 24) |
| C57 | Stackfn | `ag-stack-function?`, `stack-function-code-generate` and a machine for C functions with labels and `goto` | simulation by induction over expressions, with an invariant for the labels in scope (a jump to a label behaves like a call of its procedure); a second induction shows that all labels exist. Partial: refuted in general (findings 25, 26) |
| C58 | Expand | the expander: `expand-any` and its helpers, `compile-syntax-rules`, `syntax-lambda`, `expand-top-level-forms`; `apply-synrules` from Macros | a relation between forms, environments, macros and continuations of two runs (identifiers correspond one to one and denote the same locations; inserted numbers are shifted); induction over the depth of the recursion shows that related forms have related outputs; both claims are instances. Partial: refuted with `syntax-lambda` and for `begin` (findings 27, 28) |
| C59 | Expand | the same model, and rules (inductive relations) that say in direct style what forms, expressions, bodies, macro uses and programs are | soundness: induction over the depth, each function of the expander against the rules, for arbitrary continuations; completeness: induction over derivations, an answer from some depth on |
| C60 | Expand | the rules of C59; `Closed`: a local variable of the output is bound around it | induction over derivations: the store holds only variables and code of the scope, locations in use are not overwritten, a body's definitions keep their locations until its `letrec` is built. Partial: refuted in general (finding 29) |
| C61 | Parse | `sexp-match?`, `psexp` with its mutable state (time stamps, globals, lifted constants), `ptop`, `parse-program`; the output of the expander as data (`render`) | `Reads`/`Literals`/`Program` say what the tree of a program is; induction over the size of the form with an invariant of the state; equal literals by determinism of the parser; `Built` (induction over the rules of C59) connects it with the expander; the result satisfies the hypothesis `FixProg` of C35. Partial: refuted for global variables named `load`, `%include`, `%%` (finding 30) |
| C62 | Labels | the writer (`wrdatum` and the numbering of labels in the table of C14) and the reader (`subread` with labels, numbers, symbols, strings, characters, lists, vectors, boxes, bytevectors; `patch-ref!`, `patch-shared!`) | a tree `D` of the text between writer and reader: the writer renders the tree that describes the heap (lock step with the second traversal of C14), the reader builds cells from the rendered tree, the patches replace all placeholders; the copy relation is an invariant of building. Partial: refuted for boxes with shared or circular contents and symbols that look like numbers (finding 31) |
| C63 | Unbox (Model, Spec, Rel, Env, Sim, Pass, Main) | `unbox-values` with the tables of C types as parameters; the machine of `Core/Machine` in which a variable with a C type can only be bound to values of this type | simulation between the two machines for a relation of unboxed programs (renaming, extra `let`s at tests and on entry, reversed operands of `let`); induction over expressions shows that the pass stays in the relation |
| C64 | Fmt (Model, Spec, Strings, Proofs, Sim, Main, Direct, Argref) | the loop of `c-format-prim-text*` on lists of characters with the string functions of C43, `match-name`, `c-stringify-text`, the C types read off templates, `c-argref-ctype` | templates are lists of parts with a text they stand for; the loop on the written template gives this text up to a rewrite relation that leaves out conversions; induction over the parts with a buffer invariant. Partial: refuted for names that start after `_` (finding 34) |
| C65 | Globals (Model, Rel, Sim, Spec, Pass, Subst, Main, Count) | `analyze-globals` on Core expressions: `ag-simple?`, `ag-constant?`, `ag-inlineable?`, `ag-subst`, `global-substs`, `finalize-substs`; stack functions are not made (C57), a constant keeps its id | the definitions are the assignments always reached and made once (list equation); the pass is inside a relation between programs with a definition replaced or its assignment removed, which is a simulation on machine states (a removed global has no value in the target, an inlined closure is related to the copy). Partial: refuted for procedures with free local variables and recursive private ones (finding 35) |
| C66 | Exc (Model, Spec, Travel, Sim), Wind | `make-parameter`, `parameterize`, `call/cc`, `dynamic-wind`, `dynamic-state-reroot!` (the states of C21), `with-exception-handler`, `raise`, `raise-continuable`, `guard` as steps of a machine; programs are trees with functions for the rest. Thunks of `dynamic-wind` run in one step; procedures have one argument and result | simulation: the cells are the parameters of the current extent (folding the extents entered), `reroot` gives the thunks of C21, whose effect is that of the specification because `parameterize` puts the old values back; a continuation of `guard` is followed by the call of the thunk it is given |
| C67 | Modules (Model, Spec, Compile, Run), Str, Names | `parse-file` with `module-add-load!`, the functions `MODULE` and `LOAD()` of generated C code, `main`. A file is the list of its forms after expansion; names of definitions and messages are left out; fuel for loads | invariants of the depth-first visit (visited files, completed loads, files being visited) give the modules needed; invariant of the run (each call runs a set of modules not run before, closed under calls of what is not being called) gives once and the order |
| C68 | Derived (Model, Spec, Sim, Steps, Main) | the macros let … do, case and values of libl.sf, and a machine for expanded programs with assignments, call/cc and several values. Inserted variables have names of their own (hygiene is C58); bodies are one expression; no rest arguments in formals; operands from left to right; cells of inserted variables are kept apart | simulation of a machine that runs the forms directly: continuations of one machine are related to those of the other, inserted variables hold the values the frame says; a step without a step of the expanded program makes the form smaller |
| C69 | Quasi (Model, Spec) | the rules of the macro `quasiquote` in order, with the level of nesting, and the values of `cons`, `append`, `list->vector` expressions. Keywords are recognised as symbols; expressions have values given by an arbitrary function with effects | templates are a type of their own, with the way they are written (`print`) and their value; every datum is the text of exactly one template; induction over templates; counterexample `#(unquote x)` |
| C70 | Records (Model, Spec) | typed blocks, `make-record`, `record?`, `record-ref`, `record-set!`, the macros `id-eq??`, `id-assq??`, `init`, `unroll` and the definitions they make, evaluated on a heap of native, tagged, closure and typed blocks. Blocks do not move; asserts are checks (debugging build); one use of the macro is one frame of variables | records as functions from field names, belonging to an evaluated declaration; forward simulation over programs of any length; counterexample by evaluation |
| C71 | Ports (Model, Spec) | `getch`/`ungetch` of closed, file, string and bytevector input ports on buffers with indices, `iportpeekc`, and the library loops over them. The bytes of a FILE are a list (the C library is trusted); signedness of `char` is a parameter; one port | a port as the list of the bytes left; simulation over sequences of operations; counterexamples by evaluation |
| C72 | NumText (Model, Spec; strtol from Num) | strtofxfl with its prefix loop and both ways to a number, `fixnum->string`, `flonum->string` for integral values below 10¹⁶, and the grammar of C's strtod. Doubles are an abstract type: the value strtod gives to a text, conversions and comparison are parameters, nothing is assumed about them | the grammar of R7RS as existential statements over pieces of the text and a relation `Denotes`; equivalence by analysis of the parsers; counterexamples by evaluation |
| C73 | ListHeap (Model, Spec) | the list primitives as loops over cells of the heap with pointers into cells (`%append` stores through a pointer to the last cdr), reserved room counted, accesses to non-pairs undefined. Collections are C17 | chains of addresses between values; loop invariants; `length` characterised by an equivalence, so that circular and improper lists are included; counterexample for `list-set!` |
| C74 | Front (Shape, Pass, Props) | `fix-letrecs` then `remove-assignments` with one counter (c.sf:257-275) | binder counts, free variables, assignment targets and the condition on `fix` by induction over the pass, so that the hypotheses of C33 follow from those of C35; C33 and C35 compose. Counterexample as in C35. Left out: as in C35 |
| C75 | StrMem | strings as blocks of memory with bytes that may be unwritten; `malloc`, `memcpy`, `memset`, `strlen`, `strcpy`, `strchr`, `toupper`, `tolower` ("C" locale, signed `char`) by their definitions in C; the symbol table of C09 and the buffers of C23 | blocks split around the part a loop is at; `Holds` fixes the whole block. NUL: counterexamples; 128 to 254: undefined |
| C76 | Tower | `double` as a type with the laws of IEEE 754 binary64 for finite values (a concrete rounding function to nearest, ties to even; exact `floor`, `ceil`, `modf`, `fmod`, `fabs`; C comparisons with infinities and `nan`), met by an instance; fixnums as in C04-C06; `real-binop` and the procedures built on it | rounding leaves 53-bit significands unchanged and is monotone, so a rounded quotient of integers up to 2^50 does not reach the next integer; Euclid's loop by induction; case analysis on kinds. Not modelled: sign of zero, division of flonums by zero, arithmetic on infinities and `nan`, `sqrt`, `exp`, `log`, trigonometric functions, `pow`; operands that are no numbers |
| C77 | PortLife | Ports as tag and pointer, memory of C as the set of blocks and files in use with the field `base`/`buf` of each structure; `close` and `free` of every table of functions, `close-input-port`, `close-output-port`, `cbgrow`, finalization. Addresses are chosen freely among those not in use. Invariant by induction over all sequences of operations: blocks in use = blocks of ports neither closed nor gone, disjoint. Refuted for files: `ffree` does nothing, so the file of a port that is lost stays open (`c77_counterexample`); proved for programs that close their files first (`c77_files_tidy`). Not modelled: contents, `malloc` failing, failing `fclose`. |
| C78 | TypeTests | Words of 64 bits, memory as a function from addresses to words, heap base and mask. Every type test of the large library that looks at pointers (`isobjptr` with its mask, `isnative`, `istagged`, `istyped`, `isprocedure`, ports), the constructors as stores below `hp`. Disjointness for arbitrary memory; each constructor passes one test only; allocation keeps tests. Immediate tests are those of C02. Refuted for the state before the first allocation (`c78_counterexample`). Not modelled: that a test reads memory that may not exist; foreign pointers the library keeps to itself (the result of `open-file*`). |
| C79 | Chars | Characters as C `int`, boxed by `mkimm` and unboxed by `getimmu` on 64-bit words (C02); every primitive takes its arguments as objects or unboxed, as the compiler chooses. `<ctype.h>` in the "C" locale with its domain (EOF and unsigned char), anything else undefined. Statements over all characters below 2^23 and both representations; ASCII classes against Lean's own `Char` functions. Refuted in full (`c79_counterexample`, `c79_unboxed_counterexample`, `c79_lambda_counterexample`). Chains with more operands are C56. |
| C80 | ByteVec | Bytevectors as a length and a block of bytes, on the memory of C75 (a byte is unknown until written). Undefined behaviour, failing assertions and lack of memory are told apart. Every primitive against operations on lists of bytes; runs of `bytevector-u8-set!` on a new bytevector against the last write at each index; `byte?` on words. Refuted in full (`c80_counterexample`, `c80_byte_counterexample`, `c80_negative_counterexample`). Not modelled: the variant `NDEBUG`, which tests nothing. `bytevector-copy!`, `bytevector-append` and `bytevector->list` are C55. |
| C81 | Driver | `main` of the compiler and the end of `compile-file` over an abstract file system; the compiler proper is a parameter (any function of the files and the name). Frame, success, order, failure by induction on the argument list; names of C files by C42. Refuted in full (`c81_counterexample`, `c81_source_counterexample`, `c81_stdin_counterexample`, `c81_names_counterexample`). Not modelled: files that cannot be written, two names of one file, listings and log messages. |
| C82 | Process | `exit`, `emergency-exit` over the dynamic states of C21, `command-line` over the strings of `StrMem`. `exit` is one more jump to state 0 of a valid history; the loop over `argv` by induction. Trusted: the caller of a process sees the low eight bits of the argument of C `exit`. Refuted in full (`c82_counterexample`). |
| C83 | IntLit | Templates for integer constants over the data of C26; the specification is the grammar of C integer constants with a sign. `bin->oct` by recursion over groups of three digits; the reader by C26, fixnums by C08. Refuted for the basic library (`c83_counterexample`, `c83_base_counterexample`). Not modelled: `exact` and `inexact` prefixes, and `fixnum(...)` around the text (C44 has the formatting of templates). |
| C84 | DecLit | The template for decimals over the lexical reader of C28; the specification is the grammar of C floating constants with values in the rationals. What a C compiler rounds the constant to is its own affair. Refuted in full (`c84_counterexample`, `c84_marker_counterexample`). |

### The machines of C33–C36

Programs of the intermediate language (`Core/Ast.lean`, from `3.sf`) are given a
meaning by an abstract machine with environments, continuations and a store
(`Core/Machine.lean`, `Core/Cells.lean`; `gstep` for C36, `rstep` for C35).  The
meaning of primitives is a parameter `Sem W` over an arbitrary type `W` of
worlds.  The order of evaluation of operands is a parameter as well, required to
be fair (each operand once).  `SameBehaviour` compares results and divergence;
`Behaves` compares the sequence of worlds in addition.  Runs that end in an
error are not compared (#F programs do not signal errors reliably).

## Findings

Proved about the model, by the theorems named in `MANIFEST.json`:

1. `(fxabs -8388608)` is a fixnum word that is not `eq?` to any other (C01).
2. `fx*` overflows the C `int` (C03).
3. `fxmqu` is off by one for exact division with operands of different sign (C04).
4. `equal?`, `string=?` and the other comparisons ignore what follows a NUL
   character (C12, C16); `get-output-string` and string constants end at it (C23, C44).
5. `memv`/`assv` do not find a NaN object that is `eqv?` to itself (C15).
6. `cxm_rgc` reads outside the register file (C20).
7. `apply` fails an assertion for more than 1022 arguments (C24).
8. −8388608 is written but not read as a fixnum (C25).
9. `+i` reads as −1+1i; `1+i` is rejected (C28).
10. Here-strings lose leading empty lines (C29).
11. CPS conversion evaluates some operands of `withcc` after the second operand (C34).
12. `fix-letrecs` evaluates simple operands of `letrec*` before earlier complex
    ones, even if these assign variables they mention (C35).
13. `beta-substitute` captures variables when it copies a procedure twice, and drops an
    unused `withcc` (C36).
14. `constant-fold` trusts a type assertion on a global variable after the variable was assigned (C36).
15. `path-strip-extension` cuts at a dot in a directory name (C42).
16. `"??="` is emitted as it is, and read by C as `#` (C44).
17. `(letrec () body)` in the interpreter returns no value (C45).
18. Arities from 1000 on are mistaken for each other (C46).
19. `(a . b . c)` and `( . a)` are accepted by the reader (C51).
20. `(if e e c)` with `e`, `c` of C type `bool` becomes `e || c` (7.sf:484-488): the effects of `e` happen once
    instead of twice (`c53_counterexample`).
21. A C expression may contain several allocating C expressions (7.sf:446-459 does not look at the effect): in
    `(string=? (symbol->string a) (symbol->string b))` the second allocation can collect the first string while the C
    compiler holds a pointer into it (`c53_counterexample_alloc`).
22. `substring-copy!`, `subvector-copy!` and `subbytevector-copy!` compute a limit for short destinations, but the
    backward loop starts at `at + (end - start - 1)` instead of `at + (limit - start - 1)` (libl.sf:1728, 1809, 1941):
    `(vector-copy! (vector 1 2 3) 2 (vector 4 5 6))` writes past the end (`c55_counterexample`, `c55_short_fails`).
23. `(< a b c)` expands to `(let ([t b]) (and (< a t) (< t c)))`: `b` is evaluated before `a`, and `c` is not evaluated if the first
    comparison fails; a call of the procedure evaluates all operands (`c56_counterexample`). `(< a)` is a syntax error, `(apply < '(1))` is #t.
24. `(fx+ a b c)` groups from the right inline and from the left as a procedure; with overflow checks, or for `fl+`, the results differ
    (`c56_counterexample_fx`).
25. `cg-contains-tail-call?` (6.sf:699-716) has no clause for a named `let`: `(define (f n) (let loop ([i n]) (f i)))` is compiled to a
    function with `goto` to a label that is never written; the C compiler rejects it (`c57_counterexample`).
26. Neither `ag-stack-function?` (4.sf:479-540) nor the code generator compares the number of arguments of a tail call with the number of
    parameters: `(define (f a) (if a (f) a))` becomes a function that runs forever for `#t` (`c57_counterexample_arity`).
27. A `syntax-lambda` remembers its environment but not how many ids were in use (2.sf:383, 639-649): a macro that defines a `syntax-lambda`
    whose body has inserted identifiers, used later, mixes them up with newly inserted ones. `(k x)` in `c58_counterexample` becomes
    `(lambda (u) ((lambda (t) (x t t u)) x))`, where the inserted `if` has become `x`.
28. `(begin e ...)` met where only an expression is expected is returned and not passed to the continuation (2.sf:473): `((begin f) x)` is
    expanded to `f` and the rest of the program is lost (`c58_counterexample_begin`). After a redefinition of `%quote` or `%const` all
    literals of the program change their meaning, since the expander inserts these names without renaming (2.sf:423, 509).
29. For the same reason the internal definitions of a body can be lost: `(lambda () ((syntax-lambda () (define x 1) ((begin x)) 2)))` is
    expanded to `(lambda () x)` with an unbound local variable (`c60_counterexample`).
30. The parser takes `load`, `%include` and `%%` for keywords (3.sf:571-574), but the expander does not rename global variables with these
    names: the program `load` is expanded without an error and then refused by the parser (`c61_counterexample`).
31. The reader's final pass does not replace a placeholder that is the content of a box (libl.sf:3899): `#0=#&#0#`, written for a box that
    contains itself, is read as a box with a void object (`c62_counterexample`). `cleansymname` (libl.sf:3663-3670) lets the symbols `+.5`,
    `-.5`, `+i`, `-inf.0` and `+nan.0` be written without bars; they are read as numbers (`c62_symbol_counterexample`).
32. A parameter that is used more than once, always with the same C type, is converted on entry to the procedure, even if the uses are in a
    branch that is not taken (5.sf:341-355): `(define (f x y) (if y (fl+ x x) 0))` called as `(f 'a #f)` reads a flonum from a symbol
    (`c63_counterexample`).
33. `unbox-ctype-test` (5.sf:275-287) does not ask whether the tested variable is local: in `(if (fixnum? g) (begin (h) (fx+ g g)) 0)` with a
    global `g` that `h` assigns to, the value of `g` from the time of the test is added (`c63_global_counterexample`).
34. `match-name` (6.sf:157-167) lets a name start after `_`: an operand `fixnum(x)` after `my_fixnum_from_` gives `my_(x)`, the call of the
    function is lost (`c64_counterexample`). For an operand of a type called `…_void` the conversion becomes `(void)(`. After `$return`, `$}`
    or an operand written as `(void)(` conversions are written but not left out. A `$}` outside a loop silently drops the rest of the
    template; a loop whose body has more than ten `$arg` fails if there are no arguments. `c-argref-ctype` (6.sf:294-307) counts `$$arg` as an
    operand and does not count `$a`; for the second operand of `f($arg_from_$arg)` it gives the type `arg`.
35. `analyze-globals` (4.sf:573-649) goes into the bodies of `let`s for assignments, but does not ask whether the assigned procedure has free
    local variables: in `(begin (let ([y 4]) (set! f (lambda () (op y)))) (f))` the call of `f` is replaced by `((lambda () (op y)))` with `y`
    unbound (`c65_counterexample`). A private procedure that uses itself other than by a call, as in `(letrec ([g (lambda (x) (op x g))]) g)`, is
    inlined with the global variable in place of `g`, and the only assignment of that variable is removed (`c65_private_counterexample`).
36. (C67) `LOAD()` calls modules in the reverse order of the completion of their loads: a file that loads `a` and `b`, independent of each other, runs
    `b` first (`c67_order_counterexample`). A module that has expressions only, or assignments, never runs when it is loaded: only `define` forms
    make it one to be called (c.sf:165-170, `c67_effects_counterexample`). A module loaded by a loaded one is called in `LOAD()` but not declared
    (`extern` only for direct loads, c.sf:252; `c67_declared_counterexample`). Two files in different directories with the same name: the second one is
    taken for visited and silently skipped (`c67_names_counterexample`).
37. (C69) `` `#(unquote x) `` and `` `#(1 unquote x) `` take the last two elements of the vector for `,x`: the macro rewrites the elements of a vector as a
list, and the list `(1 unquote x)` is `(1 . ,x)` (libl.sf:3650).
38. (C70) `define-record-type` with a field of the same name as the type, used in the constructor, as in `(define-record-type node (make-node node next)
    node? …)`: the constructor is `(lambda (node next) (let ([r (make-record node 2)]) …))`, so the parameter hides the type, and the record gets the argument
    as its type. `c70_counterexample`. Related: `syntax-error` is not defined in the compiler or in LibL (only in the interpreter), so a constructor parameter that is no field is not reported when
    the program is compiled (`c70_not_a_field`); accessors and modifiers accept records of other types (`c70_unchecked`).
39. (C71) `sigetch` returns `*(fp->p)` of a `char *`: where `char` is signed, the character 255 of a string is returned as -1, which is `EOF`, after the
    position has been advanced, so `read-char` reports the end of file in the middle of the string and `peek-char` consumes; the characters 128 to 254 come
    out with codes near 2^24 (`string-ref` on the same string gives 128 to 254). `c71_counterexample`, `c71_peek_consumes`.
40. (C71) `%read-line` drops every carriage return (R7RS: a lone one ends the line), and the line ends at a NUL. `c71_counterexample_conditions`.
41. (C72) `strtofxfl` reads texts that are no numbers: `(string->number "0x1F" 16)`, `"#x#x1F"`, `"inf"`, `"infinity"`, `"nan(7)"`, `"0x1.8"`, because strtol and
    strtod have larger grammars than Scheme (`c72_counterexample`). `(string->number "#e+inf.0")` converts an infinity to long (`c72_undefined`).
42. (C72) `flonum->string` writes `%.15g`: 4503599627370497. and 4503599627370498. are both written `4.5035996273705e+15` (`c72_flonum_counterexample`);
    17 digits would be needed.
43. (C73) `(list-set! l n obj)` expands to `(set-car! (list-tail list n) obj)`: `list` is the library procedure, not the parameter `l` (libl.sf:2183). The call
    overwrites a word of the closure of `list` or of what is reached from it; the list is never changed (`c73_counterexample`).
44. Strings of the large library with a NUL: constants end there (`"a\x0;b"` is `"a"`), `string-upcase` and `string-downcase` leave the rest as it is,
    `string-position` finds a NUL at the end of every string, `string->symbol` drops the rest, and `(utf8->string bv 0)` does, too, while
    `(utf8->string bv)` does not.  Characters from 128 to 254 reach `toupper` and `tolower` as negative numbers (C75).
45. Numbers (C76, `c76_counterexample`): `odd?` adds 1.0 first, so that 2^53 is even *and* odd (`(odd? 9007199254740992.0)`);
    `modulo` and `floor-remainder` of flonums compute `x - y * floor(x / y)` with roundings: `(modulo 1152921504606846976.0 3.0)` is 0.0 (`remainder` uses `fmod` and gives 1.0);
    `rational?` is `integer?`, so 0.5 is not rational; `denominator` is always 1; `(finite? +nan.0)` is true; `(gcd -4)` and `(lcm -4)` are -4; `(log x b)` applies `fx=?` to `b`, which
    may be a flonum; `(exact 1e30)` converts to `long` out of range (`c76_exact`).
46. Files (C77, `c77_counterexample`): a file port that becomes unreachable before it is closed is finalized by `ffree`, which does nothing; the `FILE` is never closed,
    so that a program that opens files in a loop and loses the ports runs out of file descriptors, and what it wrote stays in the buffer until the program ends.
    Writing to a closed port is ignored without an error (`c77_closed`).
47. Type tests (C78, `c78_counterexample`): `cxg_heap` and `cxg_hmask` are 0 until the first allocation, so that `isobjptr` holds of every word and the type tests
    read memory around immediate objects: `(pair? 5)` in a program that has not allocated anything reads at address 15.  LibL allocates its ports when it is loaded;
    programs with the smaller libraries need not allocate.  `promise?` is `box?` (2732): boxes pass for promises.
48. Characters (C79): `integer->char` keeps 32 bits while a boxed character keeps 24, so that `(char->integer (integer->char 16777281))` is 16777281 if the compiler leaves the
    character unboxed and 65 if it is stored (`c79_unboxed_counterexample`); classes, case and `-ci` comparisons of characters above 255 call `<ctype.h>` outside its
    domain (`c79_undefined`); constants above 255 match no rule of `%const` (`c79_constant`).  Boxing a code of 2^23 or more in the lower 24 bits (a negative number too)
    overflows the shift of an `int`.
49. Bytevectors (C80): `is_byte_obj` (1836) compares words, not numbers: every word from 3 to 1023 passes, so that `(byte? '())`, `(byte? (eof-object))` and `(byte? #\x1)` are true
    (`c80_byte_counterexample`).  `allocbytevector` has no assertion: `(make-bytevector -1)` allocates three bytes and writes a length of four (`c80_negative_counterexample`).
50. Driver (C81): the C file is named by replacing the extension and is deleted first, so `sfc a.c` replaces its own source (`c81_source_counterexample`); `a.sf` and `a.scm` share `a.c`,
    `./prog` is compiled to `.c` and `x.d/prog` to `x.c` (`c81_names_counterexample`).  `sfc -` returns the value of the last `display` as the result of `main`, which is not `#f`: the exit
    status is 1 after success (`c81_stdin_counterexample`), and arguments after `-` are ignored (`c81_stdin`).
51. `(exit 256)` leaves with a status the caller sees as success: the number goes to C `exit` as it is, and only its low eight bits are seen
    (libl.sf:4410, `c82_counterexample`).  The same holds for every multiple of 256.
52. The basic library has no template for binary literals, nor for negative octal and hexadecimal ones (0.sf:398-406): `#b1` and `#x-1` are read and then
    rejected (`c83_base_counterexample`).  LibM and LibL have them (`c83_literal`).
53. The reader accepts the exponent markers s, f, d and l, but no library has a template for them: `1.5d0` is read and then rejected
    (0.sf:567-572, `c84_marker_counterexample`).

Noticed while reading, not stated as theorems: `+inf.0i` is rejected by the
reader; `#.(read-as …)` forges reader signals; `#read <datum> as x` loops;
`fxlognot` refers to an unbound `y`; `fxmin`/`fxmax` of three arguments do not
expand; `modulo` refers to an undefined `fxmodulo`; `cbputc` after `cbclose`
writes to freed memory; `string->symbol` stops at NUL; hexadecimal character
constants are accepted up to `7fffff`; `lambda-lift` leaves dead curried bindings with
unbound variables; `ag-inlineable-app-rands?` discards an `andmap` (4.sf:452);
`varassign*-exp?` takes the `car` of an empty list if one assignment too many
follows (4.sf:38); `isequal` compares closures structurally; `stabcircular` does not
unwind at blocks of size 0; a symbol that contains `*/` ends the comment it is
emitted in.

## Which code is modelled

Lines cited by the definitions of each area (ranges closer than 8 lines are joined):

| Area | Lines |
|------|-------|
| App | `6.sf` 440, 589–600; `lib/libl.sf` 456–470, 2547–2628, 2666–2693 |
| Arity | `int/intl.sf` 1676–1678; `int/ints.sf` 1016–1018, 1253–1259, 1783–1786 |
| Beta | `3.sf` 475–486; `4.sf` 418–649, 734–905; `6.sf` 134–136 |
| Boxes | `4.sf` 288–410 |
| ByteVec | `6.sf` 407; `lib/libl.sf` 1834–1847, 1861–1892, 1909–1930, 2488–2495, 4569–4573, 4886 |
| Cbuf | `lib/libl.sf` 3042–3107 |
| Cgen | `3.sf` 327–333, 475–499; `6.sf` 134; `7.sf` 56–72, 129–702 |
| Chars | `1.sf` 61–78, 591–602; `lib/libl.sf` 273, 291, 700–705, 1384–1498 |
| Cmp | `0.sf` 963–970, 1006–1034 |
| Copy | `lib/libl.sf` 347–352, 1515–1518, 1722–1733, 1755–1777, 1790–1816, 1845–1847, 1937–1943, 2444–2455, 2470–2477, 4535–4549, 4817–4828 |
| Core | `3.sf` 146–402, 504–514, 525–570, 768–863; `4.sf` 293–344; `5.sf` 158–159; `7.sf` 280–284 |
| Cps | `0.sf` 210; `3.sf` 512–514; `5.sf` 26–164 |
| DecLit | `0.sf` 564–572; `lib/libl.sf` 921–928; `lib/libm.sf` 861–868 |
| Derived | `lib/libl.sf` 109–255, 3563–3586, 4255–4263 |
| Driver | `0.sf` 1759–1765, 1915–1918, 2078; `6.sf` 630–632; `c.sf` 315–323, 362–368, 381–406 |
| Equal | `0.sf` 1923–2012; `lib/libl.sf` 3464–3551 |
| Exc | `lib/libl.sf` 2696–2727, 4246–4251, 4266–4272, 4301–4374 |
| Expand | `2.sf` 125–173, 182–183, 215–649, 757–1076 |
| Fmt | `6.sf` 18–108, 117–307 |
| Fold | `3.sf` 391–393, 865–880; `4.sf` 652–731; `6.sf` 121–152 |
| Front | `c.sf` 259–275 |
| Fx | `0.sf` 426–478, 487–538; `lib/libl.sf` 460–461, 491, 516–588, 600–612 |
| Gc | `6.sf` 414–421, 443, 505–587 |
| Globals | `3.sf` 210–215, 827–829; `4.sf` 416–649; `6.sf` 654–657 |
| Imm | `0.sf` 252–262, 272, 360–365, 384–391, 528–529, 814–821, 1156–1157, 1443–1445, 1653–1654; `6.sf` 407, 416–433; `lib/libl.sf` 268–273, 290–291, 415 |
| IntLit | `0.sf` 395–407, 1514–1525; `2.sf` 108–112, 165–170; `lib/libl.sf` 707–743; `lib/libm.sf` 647–683 |
| Interp | `int/ints.sf` 237–238, 1756–1781, 1801–1809, 1831–1908, 1924–2194, 2216–2223 |
| Labels | `lib/libl.sf` 653–687, 1747, 1954, 2005, 2427–2436, 3318, 3402–3414, 3656–3800, 3873–4221 |
| Letrec | `3.sf` 395–400; `4.sf` 16–285 |
| Lift | `3.sf` 220–221, 470–473; `5.sf` 195–266 |
| ListHeap | `lib/libl.sf` 341–346, 2006–2008, 2033–2060, 2095–2097, 2111–2189, 3593–3597, 3616–3620 |
| Lists | `0.sf` 1171–1344, 2043–2066; `7.sf` 23–45 |
| Lit | `0.sf` 823–828, 918–922, 973–981, 1491–1500, 1514–1525; `2.sf` 100–105, 114–123, 143–156; `3.sf` 575–618, 700–701; `6.sf` 153–239, 333–390 |
| Macros | `2.sf` 85–89, 182–200, 247–248, 640–1071 |
| Modules | `6.sf` 489–503, 622; `c.sf` 141–262 |
| Moves | `7.sf` 145–162, 181–204, 242–268, 358–413, 432–447, 466–505 |
| Names | `0.sf` 1514; `2.sf` 278–296; `6.sf` 49–56, 281–292, 309–314, 643–656, 671–680; `7.sf` 207–212, 522–535 |
| Nary | `2.sf` 1054–1064; `lib/libl.sf` 757–785, 802–842, 1235–1241, 4649–4657, 4677–4684, 4711–4720, 4731–4740, 4801–4815, 4843–4850, 4895–4897 |
| Num | `0.sf` 1514–1525, 1540–1552 |
| NumText | `lib/libl.sf` 460–461, 653–687, 1582–1587, 2377–2398 |
| Parse | `2.sf` 278–479, 580–600, 626; `3.sf` 75–91, 184–199, 571–763; `4.sf` 64–66 |
| PortLife | `6.sf` 538–548; `lib/libl.sf` 2778–3113 |
| Ports | `lib/libl.sf` 291, 1396, 1603, 1909, 2785–2935, 3136–3190, 3250–3290 |
| Process | `0.sf` 2081–2093; `6.sf` 630–632; `lib/libl.sf` 4406–4432 |
| Promise | `0.sf` 1619–1643; `lib/libl.sf` 2732–2752 |
| Quasi | `lib/libl.sf` 3641–3651 |
| Reader | `0.sf` 863–869, 1767–1770, 1793–1851; `1.sf` 29–168, 183–371, 437–765, 774–841, 854–925 |
| Records | `lib/libl.sf` 295, 319, 359–406, 2005, 2287–2365 |
| Regs | `6.sf` 440, 514, 589–600, 620 |
| Sets | `0.sf` 2043; `3.sf` 43–106 |
| Stab | `lib/libl.sf` 3315–3457, 3502–3510 |
| Stackfn | `4.sf` 479–540; `6.sf` 134–136, 637–868 |
| Str | `0.sf` 2043–2066; `6.sf` 18–108, 322–331 |
| StrMem | `lib/libl.sf` 1500–1624, 1686–1696, 1738–1741, 1829–1832, 1855–1858, 2260–2261, 2371–2375, 3301–3302, 4591–4615 |
| Symt | `0.sf` 1447–1489 |
| Tower | `lib/libl.sf` 534–538, 588–595, 612–652, 796–800, 994–1008, 1135–1217, 1237–1330, 1342, 4677–4709 |
| TypeTests | `6.sf` 414–417, 441–444, 509–510, 574; `lib/libl.sf` 299–301, 324–329, 363–368, 899–903, 1507–1509, 1747–1786, 1826–1828, 1954–1966, 2005–2006, 2033–2039, 2292, 2306–2312, 2510–2517, 2799–2806, 2838, 2857, 2898, 2926, 2950–2957, 2990, 3007, 3069, 3090 |
| Unbox | `3.sf` 235–239, 772–847; `5.sf` 268–359; `6.sf` 121–152, 294–307 |
| Vecs | `2.sf` 180–223 |
| Width | `1.sf` 229–231, 389–460 |
| Wind | `lib/libl.sf` 4243–4283 |

## Not modelled

* Floating point arithmetic and formatting, file I/O, the operating system
  interface, C compiler behaviour beyond the assumptions above, performance.
* The formatting of generated C text other than names, literals and code templates
  (`6.sf`, `7.sf`), stack functions made by `analyze-globals` inside the pass (see C57
  and C65), the driver (`c.sf`) but for the loading of modules (C67).
* The libraries other than the primitives listed above; `intl.sf`, `intm.sf`.

## Known inaccuracies of citations

A late spot check found line numbers that are off by a few lines in comments of
the areas Fx, Copy, Ports, Cbuf and Lists. The function named next to the number
is the right one; search for its name. These numbers were not corrected, and the
check did not cover all citations. No definition or theorem depends on them.
