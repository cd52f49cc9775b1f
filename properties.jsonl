{"id": "C01", "title": "Fixnum boxing round-trips", "statement": "Storing a machine integer in a Scheme object and reading it back returns the same integer for every value in the fixnum range, and returns the value reduced modulo the fixnum width (two's complement) for every other value; the full object word is determined by the low payload bits only, so eq? on two fixnum objects is integer equality. Holds for the 24-bit layout (compiler runtime, LibXXS, LibXS, LibS) and the 30-bit layout (LibL).", "quantifier": "every machine word / every integer payload", "why_tests_cant": "2^24 and 2^30 payloads times all out-of-range inputs; tests pick a few values around the ends of the range", "anchors": ["0.sf: mkimm getimmu getimms obj_from_fixnum fixnum_from_obj", "lib/libl.sf: mkim0 getim0s mkimm getimmu"]}
{"id": "C02", "title": "Immediate and pointer types are disjoint", "statement": "For every object word at most one of boolean?, fixnum?, char?, null?, symbol?, eof-object? is true, no aligned pointer other than 0 satisfies any of them, and #f is exactly the word 0; characters and symbols round-trip through their objects.", "quantifier": "every 64-bit object word", "why_tests_cant": "the space of object words is 2^64", "anchors": ["0.sf: isimm is_bool_obj is_fixnum_obj is_char_obj isnull issymbol iseof", "6.sf: isaptr notaptr"]}
{"id": "C03", "title": "Fixnum arithmetic is exact inside the fixnum range", "statement": "fx+, fx-, fx*, negation, quotient, remainder, comparisons, parity tests, abs and shifts on two fixnums give exactly the mathematical integer result whenever that result is a fixnum, and fx+/fx- wrap modulo the fixnum width otherwise; the C expression evaluated never overflows the C int for + and - and negation.", "quantifier": "every pair of fixnums", "why_tests_cant": "2^48 operand pairs", "anchors": ["0.sf: fx+ fx- fx* fx/ fx% fx<? fxabs fxodd? fxeven? fxsll fxsrl fxlogand fxlogor fxlogxor"]}
{"id": "C04", "title": "Integer division operators satisfy their division laws", "statement": "For every x and non-zero y: truncated quotient/remainder, floor quotient/modulo and Euclidean div/mod each return the unique pair (q, r) with x = q*y + r and r in the range that names the operator (|r|<|y| with the sign of x; r between 0 and y with the sign of y; 0 <= r < |y|).", "quantifier": "every pair of fixnums with non-zero divisor", "why_tests_cant": "all sign and exactness combinations over 2^60 pairs", "anchors": ["lib/libl.sf: fxquo fxrem fxmqu fxmlo fxdiv fxmod", "lib/libm.sf: fxmqu fxmlo", "lib/libs.sf: fxmlo"]}
{"id": "C05", "title": "gcd computes the greatest common divisor", "statement": "gcd of two fixnums terminates and returns the non-negative greatest common divisor (divides both arguments and is divisible by every common divisor).", "quantifier": "every pair of fixnums", "why_tests_cant": "unbounded loop over all pairs", "anchors": ["lib/libl.sf: fxgcd", "lib/libm.sf: fxgcd", "lib/libs.sf: fxgcd"]}
{"id": "C06", "title": "expt by repeated squaring is exact", "statement": "Exact integer expt returns x^y for all fixnum x and y >= 0 whenever x^y is a fixnum; the overflow assertion in the library version fires exactly when some required result is out of range, and no intermediate product overflows the C long.", "quantifier": "every base and exponent", "why_tests_cant": "unbounded exponents", "anchors": ["0.sf: fxexpt", "lib/libl.sf: fxpow", "lib/libs.sf: fxpow"]}
{"id": "C07", "title": "exact-integer-sqrt is the integer square root", "statement": "For every x >= 0 the integer square root s satisfies s*s <= x < (s+1)*(s+1).", "quantifier": "every non-negative integer", "why_tests_cant": "recursion over all inputs", "anchors": ["lib/libl.sf: fxsqrt exact-integer-sqrt", "lib/libm.sf: fxsqrt"]}
{"id": "C08", "title": "number->string and string->number round-trip", "statement": "For every fixnum n and every radix 2..36, converting n to a string and the string back in the same radix gives n; the string contains only an optional leading minus and digits valid in the radix with no superfluous leading zero, and fits the fixed-size C buffer; string->number rejects (returns #f for) any string that is not entirely a number in range.", "quantifier": "every fixnum and radix, every string", "why_tests_cant": "2^24 * 35 conversions and all strings", "anchors": ["0.sf: fixnum->string string->fixnum", "lib/libl.sf: fixnum->string string->fixnum"]}
{"id": "C09", "title": "Symbol interning is a bijection", "statement": "After any sequence of string->symbol calls, two names map to the same symbol iff they are equal as C strings; symbol->string returns the name it was interned under; symbols never change identity when the table grows; the probe loop always terminates.", "quantifier": "every history of intern operations, every hash function behaviour", "why_tests_cant": "histories across table growth and arbitrary collisions", "anchors": ["0.sf: hashs symbolname internsym string->symbol symbol->string"]}
{"id": "C10", "title": "list? decides proper lists on every heap", "statement": "list? always terminates, on acyclic, improper and circular structures, and returns true exactly when following cdr from the object reaches the empty list after finitely many pairs.", "quantifier": "every heap graph and object", "why_tests_cant": "all shapes of cyclic structures", "anchors": ["0.sf: islist list?", "lib/libl.sf: islist"]}
{"id": "C11", "title": "List library agrees with mathematical lists", "statement": "length, reverse, append, list-tail, list-ref, last-pair, list-copy, memq, assq on any heap where the argument is a proper list behave as the corresponding function on sequences; append shares its last argument and copies the others; reverse leaves its argument unchanged; reverse! reuses exactly the pairs of its argument.", "quantifier": "every heap and list", "why_tests_cant": "arbitrary length, sharing and aliasing", "anchors": ["0.sf: length reverse reverse! append/2 list-tail list-ref last-pair memq assq"]}
{"id": "C12", "title": "equal? is structural equality on finite data", "statement": "On acyclic data equal? terminates and returns true iff the two objects unfold to the same tree (immediates by identity, flonums and strings by content, blocks component-wise); it is reflexive, symmetric and transitive there; eqv? implies equal?.", "quantifier": "every acyclic heap and pair of objects", "why_tests_cant": "all pairs of structures", "anchors": ["0.sf: isequal iseqv"]}
{"id": "C13", "title": "LibL equal? is total on circular data", "statement": "LibL equal? always terminates, also on circular structures, and answers true iff no finite access path distinguishes the objects (bisimilarity); the bounded fast path never disagrees with the slow path.", "quantifier": "every finite heap graph and pair of objects", "why_tests_cant": "all cyclic graphs, all sharing patterns", "anchors": ["lib/libl.sf: boundequal stabequal stabufind stabshared isequal"]}
{"id": "C14", "title": "LibL circular? detects exactly the cycles", "statement": "circular? answers true iff a cycle of heap blocks is reachable from the object; shared but acyclic structure is not reported.", "quantifier": "every finite heap graph", "why_tests_cant": "all cyclic/DAG shapes", "anchors": ["lib/libl.sf: stabnew stabdelifu stabcircular stabend iscircular"]}
{"id": "C15", "title": "memv/assv/member/assoc agree with their predicate", "statement": "The specialised search loops (immediate, flonum, string and generic cases) return the first tail/entry whose key is eqv?/equal? to the object, and #f if there is none, exactly as a search that calls the predicate on each element.", "quantifier": "every key and list", "why_tests_cant": "cases by key kind times list contents", "anchors": ["0.sf: ismemv isassv ismember isassoc iseqv isequal"]}
{"id": "C16", "title": "String comparison is a total order consistent with contents", "statement": "string=? holds iff the two strings have the same characters; string<? etc. form a total order.", "quantifier": "every pair of strings", "why_tests_cant": "all strings including embedded NUL characters", "anchors": ["0.sf: string=? string<? string>? string<=? string>=?"]}
{"id": "C17", "title": "Garbage collection preserves the reachable data", "statement": "A collection at any point leaves the object graph reachable from registers and global roots isomorphic to the graph before: same shapes, same immediates, same native payloads, same sharing and cycles, root by root.", "quantifier": "every well-formed heap, root set and request size", "why_tests_cant": "all heap graphs and collection points", "anchors": ["6.sf: toheap2 relocate cxm_hgc"]}
{"id": "C18", "title": "Finalizers run exactly once and only for garbage", "statement": "During a collection the finalizer of each native object is invoked exactly once if the object is unreachable from the roots and not at all if it is reachable; payloads of reachable native objects are never freed.", "quantifier": "every well-formed heap and root set", "why_tests_cant": "all reachability patterns", "anchors": ["6.sf: finalize cxm_hgc"]}
{"id": "C19", "title": "An allocation request always gets its space", "statement": "After the heap check for n words returns, at least n words are free below the allocation pointer, the live data occupies the top of the heap, and the heap size search terminates with a size that is a power-of-two multiple of the initial size.", "quantifier": "every heap, root set and request", "why_tests_cant": "all live sizes and request sizes", "anchors": ["6.sf: cxm_hgc hreserve"]}
{"id": "C20", "title": "Register file growth preserves registers", "statement": "When the register file is grown or shifted, every live register keeps its value and the requested number of registers is available afterwards.", "quantifier": "every register state and request", "why_tests_cant": "all sizes", "anchors": ["6.sf: cxm_rgc rreserve"]}
{"id": "C21", "title": "dynamic-wind runs the right thunks in the right order", "statement": "Entering or leaving dynamic extents, by normal return or by continuation invocation, runs exactly the after thunks of the extents left (innermost first) followed by the before thunks of the extents entered (outermost first), for every nesting and every jump between any two points.", "quantifier": "every tree of dynamic extents and every sequence of jumps", "why_tests_cant": "all histories of jumps between extents", "anchors": ["lib/libl.sf: dynamic-state-reroot! dynamic-wind call-with-current-continuation", "lib/libs.sf: dynamic-state-reroot!"]}
{"id": "C22", "title": "A promise has one value", "statement": "Forcing a promise always yields the same value after the first force completes, even if evaluating it re-enters force on the same promise; once delivered the value never changes and the delayed expression is not evaluated again.", "quantifier": "every history of forces including reentrant ones", "why_tests_cant": "all reentrancy patterns", "anchors": ["0.sf: make-promise force delay", "lib/libl.sf: force make-promise delay-force"]}
{"id": "C23", "title": "String output ports return exactly what was written", "statement": "After any sequence of character writes to a string or bytevector output port, the port contents read back equal the characters written, in order; the buffer is never written out of bounds, across any number of growths.", "quantifier": "every sequence of writes and reads", "why_tests_cant": "all lengths and interleavings", "anchors": ["lib/libl.sf: newcb cbgrow cbputc cbdata get-output-string get-output-bytevector"]}
{"id": "C24", "title": "apply, rest arguments and case-lambda pass the right arguments", "statement": "apply calls the procedure with the leading arguments followed by the elements of the list; a rest-argument procedure receives the required arguments and a fresh list of the remaining ones; case-lambda selects the first clause whose arity range contains the argument count.", "quantifier": "every argument count and list", "why_tests_cant": "all argument counts", "anchors": ["lib/libl.sf: apphost appcases case-lambda make-improper-lambda", "lib/libs.sf: apphost"]}
{"id": "C25", "title": "write followed by read restores the datum", "statement": "Every datum built from booleans, characters, strings, fixnums, symbols, pairs, vectors, boxes and the empty list with external representation, when written and read back, yields an equal datum.", "quantifier": "every such datum", "why_tests_cant": "infinite set of nested data and arbitrary string contents", "anchors": ["0.sf: initial-writer", "1.sf: initial-reader subread subread-to-terminator datum->rhe-sexp"]}
{"id": "C26", "title": "Integer literals are classified by the smallest representation width", "statement": "For every non-empty digit string without leading zeros in radix 2, 8, 10 or 16 and sign, the width recorded by the reader is the least of the supported widths whose signed range contains the number.", "quantifier": "every digit string", "why_tests_cant": "arbitrarily long digit strings, boundaries in four radices", "anchors": ["1.sf: integer-representation-table integer-representation-width subread-number"]}
{"id": "C27", "title": "Block and datum comments are skipped exactly", "statement": "Inserting nested block comments, line comments or whitespace between tokens does not change the datum read; an unterminated block comment is an error, never a silent success; nesting of #| and |# is balanced.", "quantifier": "every text", "why_tests_cant": "all nestings", "anchors": ["1.sf: initial-reader input-prefix"]}
{"id": "C28", "title": "Complex and special numeric literals denote what they say", "statement": "+i and -i read as the complex numbers 0+1i and 0-1i.", "quantifier": "all rectangular literals", "why_tests_cant": "sign, missing-part combinations", "anchors": ["1.sf: subread-number"]}
{"id": "C29", "title": "Here-strings keep their lines", "statement": "A here-string literal denotes exactly its lines joined by newlines.", "quantifier": "every sequence of lines", "why_tests_cant": "all line sequences including empty lines", "anchors": ["1.sf: initial-reader"]}
{"id": "C30", "title": "Renamed variables never capture", "statement": "Distinct bindings introduced by macro expansion get distinct output variable names, and no generated name equals a name the expander emits for a global or built-in symbol.", "quantifier": "every binding location and source name", "why_tests_cant": "all names, including adversarial ones that look like generated names", "anchors": ["2.sf: symloc->var intloc->var loc->var"]}
{"id": "C31", "title": "syntax-rules templates reproduce what patterns matched", "statement": "If a macro use matches a pattern, then instantiating that same pattern as a template with the resulting bindings rebuilds the matched form; a template without pattern variables is copied; ellipsis depth is respected; matching is deterministic (first matching rule).", "quantifier": "every pattern, template and form", "why_tests_cant": "unbounded nesting of ellipses", "anchors": ["2.sf: compile-syntax-rules apply-synrules"]}
{"id": "C32", "title": "Vector wrapping is lossless", "statement": "Replacing vectors by wrapped vectors before expansion and unwrapping afterwards returns the original datum for every datum.", "quantifier": "every datum", "why_tests_cant": "arbitrary nesting", "anchors": ["2.sf: wrap-vecs unwrap-vecs map-vecs"]}
{"id": "C33", "title": "Assignment conversion preserves meaning", "statement": "Replacing assigned variables by boxes yields a program with the same observable result and the same sequence of effects, for every program.", "quantifier": "every core program and every execution", "why_tests_cant": "all programs", "anchors": ["4.sf: remove-assignments"]}
{"id": "C34", "title": "CPS conversion preserves meaning", "statement": "The continuation-passing form of a program produces the same result and the same sequence of effects as the source, including programs that capture and invoke continuations (letcc/withcc).", "quantifier": "every core program and every execution", "why_tests_cant": "all programs", "anchors": ["5.sf: cps-convert"]}
{"id": "C35", "title": "letrec fixing preserves meaning", "statement": "Turning internal definitions/letrec* into nested lets, fix groups and assignments keeps the result and the order of effects of initialisers.", "quantifier": "every letrec form", "why_tests_cant": "all classification patterns", "anchors": ["4.sf: fix-letrecs"]}
{"id": "C36", "title": "Constant folding and beta substitution preserve meaning", "statement": "Removing bindings, substituting variables and folding conditionals never changes the observable result or effect sequence.", "quantifier": "every core program", "why_tests_cant": "all programs", "anchors": ["4.sf: constant-fold beta-substitute"]}
{"id": "C37", "title": "Lambda lifting closes every lifted procedure", "statement": "After lifting, every lifted procedure receives all variables it and the procedures it calls need, and the set of extra parameters is the least such set; the iteration terminates.", "quantifier": "every call graph", "why_tests_cant": "all mutually recursive call graphs", "anchors": ["5.sf: lambda-lift"]}
{"id": "C38", "title": "Generated C names are valid and collision-free", "statement": "The C identifier generated for a Scheme global contains only letters, digits and underscores, and distinct global names give distinct C identifiers; local names with distinct stamps are distinct.", "quantifier": "every pair of names", "why_tests_cant": "all character sequences", "anchors": ["6.sf: c-mangle", "7.sf: code-generate"]}
{"id": "C39", "title": "Generated labels are unique", "statement": "No two code labels emitted in one C function have the same name, whatever the source procedures are called.", "quantifier": "every list of label ids", "why_tests_cant": "adversarial names", "anchors": ["7.sf: assign-labels!"]}
{"id": "C40", "title": "Register moves at calls behave as a parallel assignment", "statement": "Whichever of the two move strategies the code generator picks for a call, after the moves the argument registers hold the values the argument expressions had before the call.", "quantifier": "every register environment and argument list", "why_tests_cant": "all permutations and overlaps of registers", "anchors": ["7.sf: cg-fast-goto? cg-depends-on?"]}
{"id": "C41", "title": "Sorting is a stable permutation sort", "statement": "sort-by! returns a permutation of its input, ordered by the key predicate, preserving the order of equal elements.", "quantifier": "every list and total preorder", "why_tests_cant": "all lists", "anchors": ["7.sf: merge-by! split-by! sort-by!"]}
{"id": "C42", "title": "Output file names are derived from the right path component", "statement": "Stripping the extension from a path removes only a suffix of the last path component that starts at its last dot.", "quantifier": "every path", "why_tests_cant": "all paths, including dots in directory names", "anchors": ["6.sf: path-strip-extension path-strip-directory", "c.sf: compile-file"]}
{"id": "C43", "title": "String search utilities find the first occurrence", "statement": "contains?, before/after/split helpers find the first occurrence of the pattern and split the string so that the pieces concatenate back to the original.", "quantifier": "every pair of strings", "why_tests_cant": "all overlaps", "anchors": ["6.sf: string-contains? string-contains-at? substring-before substring-after string-span"]}
{"id": "C44", "title": "String constants reach the C compiler unchanged", "statement": "The C source text emitted for a Scheme string constant denotes, under C lexical rules, exactly the bytes of the constant.", "quantifier": "every string constant", "why_tests_cant": "all byte sequences including quotes, backslashes, controls, trigraphs", "anchors": ["2.sf: decompose-literal char-safe?", "1.sf: string-safe-codepoint?", "0.sf: %const string"]}
{"id": "C45", "title": "The interpreter executes what it is given", "statement": "Compiling an expanded expression to closures and running it gives the same result and final store as evaluating the expression directly with named-variable environments, for every expression: lexical addressing finds the right slot, specialised arities behave like the general case.", "quantifier": "every core expression, environment and store", "why_tests_cant": "all nestings, arities and shadowing patterns", "anchors": ["int/ints.sf: scheme-compile gen-var-ref gen-rte-ref gen-rte-set gen-lambda gen-lambda-rest gen-letrec gen-combination"]}
{"id": "C46", "title": "Arity checks accept exactly the right argument counts", "statement": "A procedure annotated with a fixed arity accepts exactly that many arguments; with a range or rest annotation exactly the counts in the range.", "quantifier": "every arity and argument count", "why_tests_cant": "all pairs of counts, including large ones", "anchors": ["int/ints.sf: argc->annotation range-argc->annotation rest-argc->annotation annotated-procedure-argc-ok?"]}
{"id": "C47", "title": "Free-variable analysis is sound and complete", "statement": "The computed free variables of an expression are exactly the variables whose value can be looked up in the surrounding environment; evaluating under two environments that agree on them gives the same result.", "quantifier": "every expression", "why_tests_cant": "all binding structures", "anchors": ["3.sf: exp->free-vars"]}
{"id": "C48", "title": "Finite-set utilities implement set algebra", "statement": "adjoin, union, intersection, difference and subset helpers used by the compiler return duplicate-free lists with exactly the right members.", "quantifier": "every pair of lists", "why_tests_cant": "all lists", "anchors": ["3.sf: adjoinq unionq intersectionq setdiffq subsetq? seteq?"]}
{"id": "C49", "title": "Text assembly concatenates in order without overruns", "statement": "string-forest->string never writes outside the string it allocates, fills it exactly, and yields the concatenation of the leaves of the forest from left to right.", "quantifier": "every forest of strings, pairs, nulls and vectors", "why_tests_cant": "unboundedly deep forests", "anchors": ["3.sf: string-forest-length string-forest->string"]}
{"id": "C50", "title": "Tidying emitted C text is harmless", "statement": "cleanup-c-code! terminates, keeps the length of the text, only drops the parentheses in assignments from a register and comments out assignments of a register to itself, and leaves everything from the first double quote on unchanged.", "quantifier": "every text", "why_tests_cant": "all texts", "anchors": ["6.sf: cleanup-c-code!"]}
{"id": "C51", "title": "A dot in a list is followed by exactly one datum", "statement": "A parenthesised sequence of data without a dot is read as the proper list of them; with one dot after at least one datum it is read as the list with the datum after the dot as its tail exactly if a single datum follows the dot; every other use of dots is a reading error.", "quantifier": "every sequence of data and dots between parentheses", "why_tests_cant": "unboundedly many lengths and nestings; the mistakes accepted are unusual texts", "anchors": ["1.sf: subread-to-terminator"]}
{"id": "C52", "title": "Lambda lifting preserves meaning", "statement": "For every program in the form produced by the preceding passes, the program obtained by lambda-lift (procedures turned into a group of closed labelled procedures that take the values of their free variables as extra arguments, closures turned into calls of those procedures) has the same result and the same effects on the outside world in the same order, and fails or runs forever only if the program does.", "quantifier": "every program without free local variables, every meaning of the primitives, every fair order of evaluation of operands that depends on their number only", "why_tests_cant": "unboundedly many programs and executions, including infinite ones; a missing extra variable shows up only on particular paths through mutually recursive procedures", "anchors": ["5.sf: lambda-lift", "5.sf: lift-extra-vars*", "3.sf: curry-exp"]}
{"id": "C53", "title": "The generated C code does what the program does", "statement": "For every program left by lambda-lift, the C code made by code-generate (C expressions, register moves, closure blocks, tests, gotos to labels and jumps to closures with the captured values reloaded), run on a machine with registers of which an allocation preserves only the live ones, has the same result and the same effects on the outside world in the same order as the program, and fails or runs forever only if the program does.", "quantifier": "every lifted program, every meaning of the primitives, every order in which the C compiler evaluates operands of primitives, every initial content of the registers and of the global variables", "why_tests_cant": "unboundedly many programs and executions, including infinite ones; register allocation errors, a fast goto that overwrites a register still needed, or an allocation that loses a register show up only for particular shapes of calls and particular moments of collection", "anchors": ["7.sf: code-gen-to-nextreg", "7.sf: cg-fast-goto?", "7.sf: cg-cexp", "7.sf: compile-curry-case", "7.sf: collect-curries!"]}
{"id": "C54", "title": "String literals and character constants denote what they say", "statement": "The reader accepts exactly the string literals made of ordinary characters, the one-character escapes and terminated hexadecimal escapes, up to the first unescaped quote, and exactly the character constants made of one character, a known name or x and a hexadecimal number, if a delimiter follows; the datum returned stands for exactly the code points denoted.", "quantifier": "every input text after a double quote or after #\\, every rest of the input", "why_tests_cant": "unboundedly many literals; an escape that swallows the following character, or a hexadecimal escape that is cut off or overflows, shows only for particular digits and neighbours", "anchors": ["1.sf: subread-string", "1.sf: subread-string-escape", "1.sf: subread-hex-scalar-value", "1.sf: subread-char"]}
{"id": "C55", "title": "Copying, filling and converting parts of strings, vectors and bytevectors is exact", "statement": "The library procedures that copy, fill, append and convert sequences read and write exactly the positions between start and end, also when source and destination are the same object and overlap, leave everything else unchanged, and never access a position outside of a sequence, whatever the lengths.", "quantifier": "every memory, every source and destination (equal or not), every start, end and position", "why_tests_cant": "unboundedly many lengths, offsets and overlaps; the direction of the loop matters only for overlapping parts of one object, the limit only for short destinations", "anchors": ["lib/libl.sf: substring-copy!", "lib/libl.sf: subvector-copy!", "lib/libl.sf: subbytevector-copy!", "lib/libl.sf: vector-append", "lib/libl.sf: vector-map"]}
{"id": "C56", "title": "Operators with any number of operands mean the same inline and as procedures", "statement": "Arithmetic, comparison and append operators applied to any number of operand expressions in operator position (a macro) have the result, effects and failures of a call of the corresponding procedure; comparisons hold iff all neighbours are related; map and for-each call the procedure on the i-th elements in order, up to the end of the shortest list.", "quantifier": "every number of operands, every operand computation with effects and failures, every binary operation, every list of lists", "why_tests_cant": "the number of operands is unbounded, and grouping and evaluation order only show for operands with effects or for operations that fail or round", "anchors": ["lib/libl.sf: fx+", "lib/libl.sf: <", "lib/libl.sf: cmp-reducer", "lib/libl.sf: addmul-reducer", "lib/libl.sf: %residual-map"]}
{"id": "C57", "title": "Stack functions behave like the procedures they are made from", "statement": "A procedure that passes the check for stack functions is compiled to a C function with loops as labels that the C compiler accepts (all labels exist, calls have the right number of arguments), that allocates nothing while values are in C variables, and every call of this function returns a value, fails, ends the program or runs forever only if an application of the procedure can do the same, with the same value and store.", "quantifier": "every procedure that passes the check, every choice of primitives that are C expressions, every meaning of primitives, every argument list, store and continuation, every number of jumps and nested calls", "why_tests_cant": "bodies nest conditionals, bindings, loops and calls without bound, and wrong jumps, overwritten parameters or lost temporaries show only for particular nestings and values", "anchors": ["6.sf: stack-function-code-generate", "6.sf: cg-contains-tail-call?", "6.sf: cg-let", "4.sf: ag-stack-function?"]}
{"id": "C58", "title": "The macro expander is hygienic", "statement": "The numbers the expander gives to identifiers inserted by macros do not influence the output; renaming a variable bound by a lambda expression to any symbol not occurring in the expression (be it the name of a keyword used by macros) changes only the name of that variable in the output; the part of the environment that a syntax-rules macro keeps is sufficient; the expansion of a program is a list of top-level forms.", "quantifier": "every program before and every form, with all macros the program defines (syntax-rules to any depth of nesting, local macros, internal definitions, begin), every starting number, every symbol", "why_tests_cant": "captures depend on which macros expand into which other macros and on the identifiers they insert; nesting is unbounded", "anchors": ["2.sf: expand-any", "2.sf: expand-top-level-forms", "2.sf: apply-synrules", "2.sf: compile-syntax-rules", "2.sf: apply-expander"]}
{"id": "C59", "title": "The expander in continuation-passing style computes the direct-style meaning of forms", "statement": "The macro expander (expand-any with its four continuations, expand-def, expand-body, expand-top-level-forms) accepts exactly the programs that have a derivation in a set of direct-style rules - an identifier is the variable or keyword its location holds; a combination is its operator and operands; a use of a macro is what its expansion in the environment of the use is; a body is a letrec of its definitions; definitions at the top level change the store for the forms after them - and gives the outputs, the store and the number of locations of that derivation; there is at most one answer.", "quantifier": "every program, every store of macros and variables, every expression in every environment; all nestings of macros, bodies and definitions", "why_tests_cant": "a lost continuation or a state that is threaded wrongly shows only for particular nestings of macros, begin, definitions and local macros; the nesting is unbounded", "anchors": ["2.sf: expand-any", "2.sf: expand-def", "2.sf: expand-body", "2.sf: apply-expander", "2.sf: expand-top-level-forms"]}
{"id": "C60", "title": "The output of the expander has no unbound local variables", "statement": "Every local variable in the output of the expander is bound: by the formals of a lambda expression, a letcc or a letrec around it with the same number and name, or by an earlier top-level definition.", "quantifier": "every program, with all macros it defines (syntax-rules and syntax-lambda), local macros, internal definitions", "why_tests_cant": "the bindings of a body are collected while its macros are expanded and their code is moved into other scopes; which variables end up where depends on the macros of the program", "anchors": ["2.sf: expand-body", "2.sf: expand-def", "2.sf: apply-expander", "2.sf: expand-any"]}
{"id": "C61", "title": "The parser turns an expanded program into the tree it denotes", "statement": "parse-program accepts every program of the core language that the expander builds. In the tree, each occurrence of a variable is the id of the innermost binding of that variable around it, or else the one id of the global variable of that name; two binders never share an id and no free id is local; if, lambda, letrec, letcc, withcc, set!, begin, primitives and combinations keep their operands in order; every literal is computed once, before the code of the program and after the literals inside it, outside all scopes, and equal literals share one private constant; the reported references are exactly the global variables of the program.", "quantifier": "every program of definitions and expressions, of every size and nesting, every set of atoms", "why_tests_cant": "scopes, literals and global names are threaded through the whole program in mutable state; a wrong id shows only for particular nestings of equal names and equal literals", "anchors": ["3.sf: parse-program", "3.sf: sexp-match?", "3.sf: psexp", "3.sf: liftc", "3.sf: make-id", "3.sf: add-lifted-consts", "4.sf: letrec-exp"]}
{"id": "C62", "title": "read gives back a copy of what write and write-shared wrote, with datum labels", "statement": "What write writes for any finite structure of pairs, vectors, boxes, strings, bytevectors, characters, booleans, fixnums and symbols, circular or not, is read by read as a copy of the structure: every new object is of the kind of the object it copies and its components are copies of its components; the characters after the text are left in the port. For write-shared different new objects are copies of different objects, so that the copy has exactly the sharing and the cycles of the original. write-simple has the property of write for structures without cycles.", "quantifier": "every heap, every object in it of which at most 2^29 heap objects can be reached, every rest of the port that starts with a delimiter", "why_tests_cant": "the table of shared objects, the numbering of labels, the reader's placeholders and the replacement of placeholders after reading interact; the shapes of circular structures are unbounded", "anchors": ["lib/libl.sf: wrdatum", "lib/libl.sf: oportputcircular", "lib/libl.sf: oportputshared", "lib/libl.sf: stabref", "lib/libl.sf: stabri", "lib/libl.sf: cleansymname", "lib/libl.sf: %read", "lib/libl.sf: patch-ref!, patch-shared!"]}
{"id": "C63", "title": "Unboxing of values preserves the meaning of programs", "statement": "unbox-values replaces variables that hold numbers of one C type by new variables of this C type. If the types read off the C texts of the primitives are right, the new program goes through the same sequence of worlds as the given one and has the same result; every variable with a C type only ever gets values of this type; it is used only as an operand that the C text of a primitive converts to exactly this type; the new variables are distinct, local, and not used before.", "quantifier": "every program after lambda-lift, of every size, every set of primitives with honest C types, every order of evaluation of operands", "why_tests_cant": "whether a variable is unboxed depends on all its uses, on tests around them and on the operand bound to it; a wrong conversion shows only for values of another type that reach a particular place", "anchors": ["5.sf: unbox-values", "5.sf: unbox-ctype-test", "5.sf: var-unboxed-ctype", "3.sf: exp-vinfo", "3.sf: var-unboxed-ctype-in-exp", "6.sf: c-argref-ctype"]}
{"id": "C64", "title": "Templates of C code are filled in correctly", "statement": "c-format-prim* writes the text that a template stands for (characters, $arg, $a, $argc, $arg#, $arg#-1, $arg#+1, $live, $return, $$ and loops ${...$} until all arguments are used), except that a value of a C type that is made an object and read back at once as a value of the same type, or not used, is used directly. If c-argref-ctype gives the type of an operand, or the place for the result gives the type after $return, the conversion is indeed left out. The C types read off a template are the identifiers before the first parenthesis, after $return, or in a type check.", "quantifier": "every well-formed template of every length, every list of arguments, every text for $live and $return", "why_tests_cant": "the formatter looks back at the text written so far and forward in the template; whether a match is a match of a whole name depends on what was written before, and templates come from programs", "anchors": ["6.sf: c-format-prim-text*", "6.sf: match-name", "6.sf: primexp-ctype", "6.sf: prim-ctype", "6.sf: prim-cexp?", "6.sf: typecheck-prim-ctype", "6.sf: typeassert-prim-ctype", "6.sf: c-argref-ctype", "6.sf: c-stringify-text"]}
{"id": "C65", "title": "Analysis of globals preserves the behaviour of programs", "statement": "analyze-globals replaces uses of global variables that are assigned once, in a place always reached, by their constant value or procedure, and removes the assignments of private constants. The new program has the same behaviour: it returns the same result with the same effects, fails if the given program fails and runs forever if it does. The definitions it works with are exactly those of private constants and of global variables assigned once outside of procedures and branches. Assignments of variables that are not private are neither removed nor copied.", "quantifier": "every program, every meaning of primitives, every order of evaluation of operands, every choice of private constants", "why_tests_cant": "a procedure can be copied anywhere in the program, under any binders, before or after its definition is evaluated; definitions are substituted in each other; whether a removed assignment is missed depends on all executions", "anchors": ["4.sf: analyze-globals", "4.sf: ag-simple?", "4.sf: ag-constant?", "4.sf: ag-inlineable?", "4.sf: ag-inlineable-app-rands?", "4.sf: ag-subst", "4.sf: global-substs", "4.sf: finalize-substs"]}
{"id": "C66", "title": "Parameters, exceptions, guard, dynamic-wind and continuations work together", "statement": "The library implements parameterize, with-exception-handler, raise, raise-continuable, guard, dynamic-wind and call/cc by one mutable tree of dynamic states and one mutable cell per parameter. A program that uses them in any combination ends with the value, unhandled exception or error, and the state of the world, that a specification with immutable dynamic environments prescribes: each continuation has its list of handlers, its values of parameters and its active calls of dynamic-wind; handlers run with the outer handlers; the clauses of guard are tried in the dynamic environment of the guard, and if none applies the exception is raised again, continuably, in the dynamic environment of the original raise; thunks run innermost-after first, then outermost-before, with the parameters outside of their call. A program does not end if and only if it does not end in the specification.", "quantifier": "every program (tree of these operations with arbitrary functions for the rest of computations), every initial parameters, converters and world", "why_tests_cant": "all nestings of handlers, guards, parameterizations and jumps by continuations; programs that do not end", "anchors": ["lib/libl.sf: make-parameter parameterize call-with-current-continuation dynamic-wind dynamic-state-reroot! current-exception-handler with-exception-handler raise raise-continuable guard"]}
{"id": "C67", "title": "Modules are loaded in the right order, once", "statement": "A file that loads others is compiled to a C file with a function MODULE and a macro LOAD() with calls of the functions of the modules loaded, directly or not, that have definitions. Running the program made of a complete set of modules, from any of them and with loads in any graph (cycles included), ends; the code of each module needed that has definitions, and of the main one, runs exactly once, no other code runs, and a module runs after those it needs unless they need it, too. At compile time LOAD() has each such module once; includes and definitions are those of the text in which each file stands in the place of its first load, in this order. Refuted parts: modules run in the order of the load forms; modules without definitions but with expressions run; functions called by LOAD() are declared; files in different directories with the same last component are both loaded.", "quantifier": "every file system, every complete set of modules with different names, every main module; no bound on the number of files or the depth of loads", "why_tests_cant": "unboundedly many graphs of files, with cycles and shared modules", "anchors": ["c.sf:146-262 parse-file", "6.sf:489-503 MODULE", "6.sf:622 main"]}
{"id": "C68", "title": "Derived forms mean after expansion what they should", "statement": "A program with let, named let, let*, letrec, letrec*, values, receive, let*-values, let-values, when, unless, and, or, cond (with => and test-only clauses), case (with =>), and do, with assignments, call/cc and several values, is expanded by the macros of the library to a program of lambda, call, if, set! and call/cc that has the same result, fails if the given one fails, runs forever if it does, and passes through the same states of the world. In the specification each form has a meaning of its own: operands of let are evaluated before variables are bound, let-values binds all variables after all expressions, tests are evaluated once, do binds fresh variables in each round, variables without a step keep their value.", "quantifier": "every program, of every size and nesting, every set of primitives, every initial world", "why_tests_cant": "macros are combined with each other, with assignments to captured variables and with continuations that re-enter the expanded code; whether a variable is fresh in each round, or an expression is evaluated twice, shows only in such combinations", "anchors": ["lib/libl.sf: let", "lib/libl.sf: let*", "lib/libl.sf: letrec", "lib/libl.sf: letrec*", "lib/libl.sf: receive", "lib/libl.sf: let*-values", "lib/libl.sf: let-values", "lib/libl.sf: cond", "lib/libl.sf: case", "lib/libl.sf: and", "lib/libl.sf: or", "lib/libl.sf: do", "lib/libl.sf: values"]}
{"id": "C69", "title": "Quasiquotation builds the data its templates describe", "statement": "The macro quasiquote turns a template into an expression whose value is the template with each ,x at the outermost level replaced by the value of x and each ,@x by the elements of the value of x, in lists and vectors; nested quasiquotations keep their text, except for what belongs to the outermost level; each expression is evaluated once. Every datum is a template in exactly one way. Full statement: for all templates. Refuted in the code for vectors that end in two elements such as unquote x: these are taken for ,x.", "quantifier": "every template of every size, depth and nesting level, every evaluation of expressions with effects or failures, either order of evaluation of operands", "why_tests_cant": "levels, splicing in the last position, dotted tails and vectors combine without bound; a rule that matches too early shows only for data that happen to look like a form", "anchors": ["lib/libl.sf: quasiquote"]}
{"id": "C70", "title": "Records are abstract data", "statement": "A program that declares record types with define-record-type (any number of times), makes records, tests, reads and modifies them through the procedures so defined, and makes and modifies other objects, gets the results it would get from abstract records: a constructor gives each field it names the argument of that name and #f to the others; a predicate is true of exactly the records made by the constructor of the same evaluated declaration; an accessor gives the last value stored under its field name in that record; a modifier changes that field of that record and nothing else. A constructor parameter that is not a field makes every call of the constructor stop; accessors stop on objects that are not records. Full statement: for all declarations with distinct names. Refuted in the code for a field with the name of the type; and accessors do not check the type of a record.", "quantifier": "every program of declarations, calls, allocations and assignments, of every length; every number, order and subset of fields; every declaration evaluated any number of times", "why_tests_cant": "indices are computed by a macro from the lengths of its accumulators, and constructor parameters are found by comparing identifiers; a test tries a few declarations, and names that collide are found only by trying them", "anchors": ["lib/libl.sf: define-record-type", "lib/libl.sf: make-record", "lib/libl.sf: record?", "lib/libl.sf: record-ref", "lib/libl.sf: record-set!", "lib/libl.sf: new-record-type", "lib/libl.sf: istyped", "lib/libl.sf: typedref", "lib/libl.sf: typedtype"]}
{"id": "C71", "title": "Input ports give the bytes of their source in order", "statement": "Whatever sequence of read-char, peek-char, read-u8, peek-u8, read-line, read-substring, read-subbytevector, read-substring!, read-subbytevector! and close-input-port a program applies to a file, string or bytevector input port, the results are those given by the list of bytes of the source: nothing is lost, repeated or changed, peeking takes nothing away, lines end at LF, CR or CRLF, blocks are as long as asked for or end at the end of the source, end of file is reported only there, and no read goes outside the buffer of the port. Full statement: for all bytes. Refuted in the code: where char is signed, character 255 of a string port reads as end of file (and peeking consumes it) and characters from 128 read as other characters; text after NUL is lost in string ports and lines; a lone CR does not end a line and is dropped.", "quantifier": "every source and content, both signednesses of char, every sequence of operations of every length, every block size and range", "why_tests_cant": "depends on particular byte values, on the platform's char, and on how peeks and reads are interleaved at the end of the source", "anchors": ["lib/libl.sf: iportgetc", "lib/libl.sf: iportpeekc", "lib/libl.sf: sigetch", "lib/libl.sf: siungetch", "lib/libl.sf: bvigetch", "lib/libl.sf: bviungetch", "lib/libl.sf: %read-line", "lib/libl.sf: read-substring!", "lib/libl.sf: read-substring", "lib/libl.sf: read-subbytevector!", "lib/libl.sf: read-subbytevector", "lib/libl.sf: read-char", "lib/libl.sf: peek-char"]}
{"id": "C72", "title": "Texts read as numbers, and numbers written, in the large library", "statement": "string->number (strtofxfl) with any radix 2..36 gives a number exactly for the texts of the grammar of numbers: an optional radix and an optional exactness prefix in either order, then an integer in the radix or, in radix ten, a decimal with optional point and exponent or one of ±inf.0 and ±nan.0; the number is the one denoted, exact if it is an integer in the range of fixnums or the prefix asks for it and it can be represented. Every fixnum written by number->string in any radix is a canonical numeral, fits the buffer, and is read back as the same number; flonums are read back as the same flonum. Refuted in the code: 0x is accepted in radix 16, prefixes may be repeated, the names inf, infinity, nan and nan(…) of C and hexadecimal fractions are numbers in radix ten, #e+inf.0 converts an infinity to long, and flonums are written with fifteen digits, so that different flonums have the same text.", "quantifier": "every text, every radix from 2 to 36, every fixnum; every interpretation of doubles; every integral flonum below 10^15 for the text of flonums", "why_tests_cant": "the texts are unbounded and the grammar is scattered over a loop, two C library functions with grammars of their own and a search for letters", "anchors": ["lib/libl.sf: strtofxfl", "lib/libl.sf: fixnum->string", "lib/libl.sf: flonum->string", "lib/libl.sf: strcmp_ci", "lib/libl.sf: string->fixnum-or-flonum"]}
{"id": "C73", "title": "List primitives of the large library on the heap", "statement": "length, reverse, reverse!, append of any number of operands, cons*, make-list, list-copy, list-tail, list-ref, last-pair, memq, assq and list-set! do on the heap what their definitions on lists say: length returns exactly for proper lists; results that are new lists consist of new pairs only, with the elements in the right order, and lead to the last operand itself where it is to be shared; no other pair is changed, and the number of pairs reserved is never exceeded; reverse! uses exactly the pairs of its operand and changes nothing else; searches give the first pair found. Refuted in the code for list-set!, whose body names the procedure list instead of its parameter.", "quantifier": "every heap, with any sharing between lists, every list of any length, every number of operands of append and cons*", "why_tests_cant": "sharing, circular lists and writes to pairs other than the ones meant cannot be enumerated; list-set! corrupts memory without an error", "anchors": ["lib/libl.sf: length", "lib/libl.sf: reverse", "lib/libl.sf: reverse!", "lib/libl.sf: %append", "lib/libl.sf: append", "lib/libl.sf: cons*", "lib/libl.sf: list-copy", "lib/libl.sf: list-tail", "lib/libl.sf: list-ref", "lib/libl.sf: list-set!", "lib/libl.sf: last-pair", "lib/libl.sf: memq", "lib/libl.sf: assq", "lib/libl.sf: %make-list"]}
{"id": "C74", "title": "The first two passes together", "statement": "fix-letrecs followed by remove-assignments, both drawing identifiers from the one counter of the compiler: fix-letrecs returns a program of the kind remove-assignments needs (distinct binders that are not free anywhere, all identifiers older than the counter, nothing bound by fix assigned, no new free or assigned variable); the result of both has the behaviour of the source program (value, whole sequence of worlds, divergence) when it is run by the machine without cells and without uninitialized variables, and has no assignment to a local variable. Refuted in the code for programs in which a simple operand of letrec* mentions a variable an earlier operand assigns to (C35).", "quantifier": "every program with distinct binders, every meaning of primitives, every order of evaluation of operands, every initial world, every number of steps", "why_tests_cant": "The passes are only tested together on programs at hand; that the output of the first meets the conditions of the second (for instance that no identifier is created twice) has to hold for every program.", "anchors": ["c.sf:257-275", "4.sf: remove-assignments", "4.sf: fix-letrecs"]}
{"id": "C75", "title": "Strings of the large library are blocks of memory that hold their characters", "statement": "Every operation on strings of the large library (constants, make-string, string, string-length, string-ref, string-set!, substring, string-append, string-copy, string-fill!, string-upcase, string-downcase, string-position, conversions to and from symbols and bytevectors) works inside of the blocks of memory involved, uses only bytes that were written, and gives a block with the length, the characters and the terminator that the operation on sequences of characters says. Refuted in the code for the character NUL: constants, changes of case, string-position, symbols and parts of bytevectors stop at it or find the terminator; and for the characters from 128 to 254, for which changes of case call toupper and tolower outside of their domain.", "quantifier": "every string of any length over all 256 characters, every index, every range, every state of the symbol table", "why_tests_cant": "The operations are loops over memory whose correctness depends on lengths, ranges and embedded NULs; a test sees neither the bytes next to a block nor undefined behaviour.", "anchors": ["lib/libl.sf: newstring", "lib/libl.sf: newstringn", "lib/libl.sf: allocstring", "lib/libl.sf: substring", "lib/libl.sf: stringcat", "lib/libl.sf: dupstring", "lib/libl.sf: stringfill", "lib/libl.sf: string-upcase", "lib/libl.sf: string-downcase", "lib/libl.sf: string-position", "lib/libl.sf: symbol->string", "lib/libl.sf: string->symbol", "lib/libl.sf: utf8->string", "lib/libl.sf: string->utf8"]}
{"id": "C76", "title": "Arithmetic on numbers of both kinds is exact on exact numbers and correctly rounded otherwise", "statement": "For all numbers, fixnums or flonums: comparisons answer for the exact values, whatever the kinds; + - * / of fixnums give the exact result or stop (for / the nearest flonum if there is no exact result); with a flonum among the operands the result is the flonum nearest to the result for the exact values; integer?, zero?, positive?, negative?, nan?, infinite?, finite?, rational?, even?, odd? answer for the value; exact and inexact keep the value or stop; max and min give the greatest and least value, exact if all operands are; quotient, remainder, modulo, gcd, lcm satisfy their laws; floor, ceiling, truncate, round give the integer they are named after. Refuted in the code: odd? and modulo for large flonums, rational?, denominator, finite? of nan, gcd and lcm of one negative operand, log with a flonum base.", "quantifier": "every pair of fixnums and flonums (lists of any length for max and min), every arithmetic that meets the laws of IEEE 754 for finite values", "why_tests_cant": "2^64 flonums per operand; the errors appear only where a rounding crosses an integer", "anchors": ["lib/libl.sf: real-binop = < > <= >= + - * / abs quotient remainder modulo gcd lcm zero? even? odd? finite? rational? exact inexact floor ceiling truncate round max min log", "lib/libl.sf: fxflo flisint fxifdv flquo flrem flmlo flgcd flround"]}
{"id": "C77", "title": "Ports give back what they use, once", "statement": "For every sequence of operations on ports (open a file, a string or a bytevector port; read; write; close, also repeatedly; become unreachable and be finalized by the collector), whatever addresses malloc, realloc and fopen hand out (including addresses that were given back before): no block of memory is freed twice or touched after it was freed, no FILE is closed twice or touched after it was closed, at every moment the blocks in use are exactly those of the ports that are neither closed nor gone and no two ports share one, a closed port answers end of file and ignores what is written, and closing it again changes nothing. A port that is finalized gives back all it uses.", "quantifier": "all reachable states of the port system, all operations, all choices of addresses by the allocator", "why_tests_cant": "a double free or a use after free depends on the interleaving of closing, collection and reuse of addresses, which tests sample only, and usually does not crash", "anchors": ["lib/libl.sf:2778-2933", "lib/libl.sf:2935-3113", "6.sf:538-548"]}
{"id": "C78", "title": "Every object has one type", "statement": "In every state of a program, whatever is in memory: at most one of the type tests (boolean?, fixnum?, void, char?, null?, symbol?, eof-object?, flonum?, string?, bytevector?, input-port?, output-port?, pair?, vector?, box?, record?, procedure?) holds of a word. What cons, vector, box, make-record, a closure, a static procedure, or a native object (flonum, string, bytevector, port) returns passes its own test and no other, and later allocations do not change that.", "quantifier": "all words, all contents of memory, all heaps with any base and size, all constructor arguments, all positions of the allocation pointer", "why_tests_cant": "tests are decided by bit patterns of addresses and neighbouring words; a clash needs a particular layout of memory that a test will not produce", "anchors": ["lib/libl.sf:259-368", "lib/libl.sf:1747-1786", "lib/libl.sf:1954-2039", "lib/libl.sf:2292-2312", "lib/libl.sf:2510-2517", "lib/libl.sf:2799-2806", "lib/libl.sf:2950-2957", "6.sf:414-417", "6.sf:441-446", "6.sf:509-510", "6.sf:574"]}
{"id": "C79", "title": "Characters of the large library", "statement": "Every character below 2^23 has its own word, which char? and no other test for immediate objects accepts and which gives the code back; integer->char and char->integer are inverse, and the comparisons compare codes, whether characters are passed as objects or unboxed. For one-byte characters the -ci comparisons compare lower case characters, classes and case conversions are those of ASCII (idempotent, inverse up to case, changing exactly the letters); digit-value gives a number exactly for the ten digits; character constants of one byte denote their code. Refuted in full: numbers above 2^24 give different characters boxed and unboxed; classes and case of characters above 255 are undefined behaviour; constants above 255 are refused.", "quantifier": "all characters and all ways of passing them (object or unboxed)", "why_tests_cant": "There are 2^23 characters, each in two representations and in pairs for comparisons; undefined behaviour of ctype functions often goes unnoticed in a test.", "anchors": ["lib/libl.sf:1374-1498", "lib/libl.sf:268-291", "1.sf:61-80", "1.sf:587-602"]}
{"id": "C80", "title": "Bytevectors of the large library", "statement": "make-bytevector, bytevector, list->bytevector, bytevector-u8-ref, bytevector-u8-set!, bytevector=? and bytevector-copy work on blocks of memory as operations on finite sequences of bytes: the block holds exactly the bytes, a set changes one byte, equality is equality of contents, a copy holds the part asked for; indexes out of range and values that are not bytes fail an assertion and never touch memory outside of the block. A bytevector made without a fill gives at each index what was written last there. byte? holds among fixnums exactly of 0 to 255. Refuted in full: byte? accepts '(), the end-of-file object and some characters; (make-bytevector -1) writes outside of its block.", "quantifier": "all contents, lengths, indexes, and sequences of writes", "why_tests_cant": "Lengths, contents, indexes and write sequences are unbounded; an access one byte outside of a block goes unnoticed in a test run.", "anchors": ["lib/libl.sf:1816-1949", "lib/libl.sf:2488-2495", "lib/libl.sf:4569-4573", "lib/libl.sf:4886-4889"]}
{"id": "C81", "title": "The driver: files, order and exit status", "statement": "A run of sfc changes no files but the C files of its arguments; sources whose names have an extension other than .c stay as they were. If all arguments are flags and files that compile to different C files which the compiler does not read, the exit status is 0 and every C file has the text compiled from its source as it was at the beginning. Arguments are worked off from left to right; the first file that is missing or does not compile ends the run with status 1, leaving its C file and all later ones alone. Refuted in full: `sfc a.c` replaces its source, `sfc -` has status 1 after success, sources with the same stem share one C file.", "quantifier": "all compilers, file systems and argument lists", "why_tests_cant": "Argument lists and file systems are unbounded; collisions of names are found only if somebody thinks of them.", "anchors": ["c.sf:309-323", "c.sf:381-406", "6.sf:322-331", "6.sf:616-632"]}
{"id": "C82", "title": "Leaving the process, and its arguments", "statement": "At any point of any history of dynamic extents and continuations (exit arg ...) calls the after thunks of all open extents, innermost first, and nothing else, and then leaves with the status of its arguments: success for none and #t, failure for everything that is no number and for more than one argument, numbers from 0 to 255 unchanged; main succeeds exactly if it returns #f. command-line returns strings that hold exactly the arguments of the process, in order. Refuted in full: (exit 256) is seen as success.", "quantifier": "all valid histories of dynamic-wind and continuations, all arguments, all argv", "why_tests_cant": "Histories of nested and re-entered extents and argument vectors are unbounded.", "anchors": ["lib/libl.sf:4406-4432", "0.sf:2081-2093", "6.sf:616-632"]}
{"id": "C83", "title": "Integer literals reach the C compiler unchanged", "statement": "For every integer literal in radix 2, 8, 10 or 16 whose value has at most 24 bits, the C text emitted for it denotes, under the lexical rules of C, exactly its value; literals with more bits are rejected, never truncated. The same holds for fixnums computed by macros. Refuted for the basic library: it has no templates for binary literals and for negative octal and hexadecimal ones.", "quantifier": "all literals in the four radixes, both signs, any case and any number of leading zeros; all fixnums", "why_tests_cant": "Literals are unbounded; C reads a leading 0 as octal, so one stray zero changes a value silently.", "anchors": ["lib/libl.sf:707-743", "lib/libm.sf:647-683", "0.sf:395-407", "2.sf:108-112", "2.sf:165-170", "1.sf:427-460"]}
{"id": "C84", "title": "Decimal literals reach the C compiler unchanged", "statement": "For every decimal literal of radix ten (with a point or an exponent, any number of zeros, and an exponent marked e or E if any) the C text emitted for it is a floating constant of C that denotes exactly the rational number the literal denotes. Refuted in full: literals with the exponent markers s, f, d and l are read, but have no template.", "quantifier": "all decimal literals", "why_tests_cant": "Digits and exponents are unbounded; zeros are stripped on both sides.", "anchors": ["0.sf:564-572", "lib/libm.sf:861-868", "lib/libl.sf:921-928", "1.sf:447-508", "1.sf:160-168"]}
