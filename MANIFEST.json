{
 "claims": [
  {
   "property": "C01",
   "status": "partial",
   "theorems": [
    "Verif.Imm.c01_fixnum24_roundtrip",
    "Verif.Imm.c01_fixnum24_exact",
    "Verif.Imm.c01_fixnum24_eq",
    "Verif.Imm.c01_fixnum24_tag",
    "Verif.Imm.c01_fxabs_counterexample",
    "Verif.Imm.c01_fixnum30_roundtrip",
    "Verif.Imm.c01_fixnum30_exact",
    "Verif.Imm.c01_fixnum30_eq",
    "Verif.Imm.c01_fixnum30_tag"
   ],
   "note": "Proved for every payload word in both layouts, except that the code itself violates the eq? part for one value: (fxabs -8388608) builds a non-canonical word (c01_fxabs_counterexample)."
  },
  {
   "property": "C02",
   "status": "proved",
   "theorems": [
    "Verif.Imm.c02_disjoint24",
    "Verif.Imm.c02_pointers24",
    "Verif.Imm.c02_bool24",
    "Verif.Imm.c02_char24",
    "Verif.Imm.c02_symbol24",
    "Verif.Imm.c02_disjointL",
    "Verif.Imm.c02_pointersL",
    "Verif.Imm.c02_header"
   ],
   "note": "Every 64-bit word, both layouts."
  },
  {
   "property": "C03",
   "status": "partial",
   "theorems": [
    "Verif.Fx.c03_add",
    "Verif.Fx.c03_sub",
    "Verif.Fx.c03_neg",
    "Verif.Fx.c03_mul",
    "Verif.Fx.c03_mul_overflow",
    "Verif.Fx.c03_quo",
    "Verif.Fx.c03_rem",
    "Verif.Fx.c03_compare",
    "Verif.Fx.c03_logical",
    "Verif.Fx.c03_sll",
    "Verif.Fx.c03_srl",
    "Verif.Fx.c03_libl_checked",
    "Verif.Fx.c03_libl_shift",
    "Verif.Fx.c03_libl_ndebug"
   ],
   "note": "Exactness, wrap-around and absence of C overflow for +,-,neg; * is exact when the product is a fixnum. fx* can overflow the C int (c03_mul_overflow), which the statement allows; fxlognot and 3-argument fxmin/fxmax are not modelled (they do not expand)."
  },
  {
   "property": "C04",
   "status": "partial",
   "theorems": [
    "Verif.Fx.c04_truncated",
    "Verif.Fx.c04_euclidean",
    "Verif.Fx.c04_floor_modulo",
    "Verif.Fx.c04_floor_quotient_partial",
    "Verif.Fx.c04_floor_quotient_counterexample"
   ],
   "note": "Truncated and Euclidean pairs and floor remainder proved; floor quotient is wrong in the code for exact division with operands of opposite sign (counterexample theorem), the rest of its domain is proved in c04_floor_quotient_partial."
  },
  {
   "property": "C05",
   "status": "proved",
   "theorems": [
    "Verif.Fx.c05_gcd"
   ],
   "note": ""
  },
  {
   "property": "C06",
   "status": "proved",
   "theorems": [
    "Verif.Fx.c06_fxexpt",
    "Verif.Fx.c06_fxpow"
   ],
   "note": ""
  },
  {
   "property": "C07",
   "status": "proved",
   "theorems": [
    "Verif.Fx.c07_sqrt"
   ],
   "note": ""
  },
  {
   "property": "C08",
   "status": "proved",
   "theorems": [
    "Verif.Num.c08_string_to_number",
    "Verif.Num.c08_roundtrip"
   ],
   "note": ""
  },
  {
   "property": "C09",
   "status": "proved",
   "theorems": [
    "Verif.Symt.c09_intern",
    "Verif.Symt.c09_stable",
    "Verif.Symt.c09_exact"
   ],
   "note": ""
  },
  {
   "property": "C10",
   "status": "proved",
   "theorems": [
    "Verif.Lists.c10_listp"
   ],
   "note": ""
  },
  {
   "property": "C11",
   "status": "proved",
   "theorems": [
    "Verif.Lists.c11_length",
    "Verif.Lists.c11_reverse",
    "Verif.Lists.c11_reverse_bang",
    "Verif.Lists.c11_append",
    "Verif.Lists.c11_append_list",
    "Verif.Lists.c11_list_copy",
    "Verif.Lists.c11_list_tail",
    "Verif.Lists.c11_list_ref",
    "Verif.Lists.c11_last_pair",
    "Verif.Lists.c11_memq",
    "Verif.Lists.c11_assq"
   ],
   "note": ""
  },
  {
   "property": "C12",
   "status": "partial",
   "theorems": [
    "Verif.Equal.c12_terminates",
    "Verif.Equal.c12_unfolds",
    "Verif.Equal.c12_tree_partial",
    "Verif.Equal.c12_counterexample",
    "Verif.Equal.c12_equivalence"
   ],
   "note": "Termination on acyclic data, equivalence laws and eqv? ⊆ equal? for all heaps; tree equality for NUL-free strings and non-NaN flonums. Full statement refuted (embedded NUL) by c12_counterexample."
  },
  {
   "property": "C13",
   "status": "proved",
   "theorems": [
    "Verif.Stab.c13_bound",
    "Verif.Stab.c13_equal"
   ],
   "note": "LibL isequal incl. hash table, union-find, fast path; terminates on every finite heap graph, true iff no access path distinguishes."
  },
  {
   "property": "C14",
   "status": "proved",
   "theorems": [
    "Verif.Stab.c14_circular"
   ],
   "note": "circular? on every finite heap graph, over the concrete hash table and explicit stack."
  },
  {
   "property": "C15",
   "status": "partial",
   "theorems": [
    "Verif.Equal.c15_memv_assv_partial",
    "Verif.Equal.c15_member_assoc_partial",
    "Verif.Equal.c15_member_acyclic_partial",
    "Verif.Equal.c15_counterexample"
   ],
   "note": "All keys other than NaN; for NaN keys the statement is false (c15_counterexample: memv misses a NaN object that is eqv? to itself)."
  },
  {
   "property": "C16",
   "status": "partial",
   "theorems": [
    "Verif.Cmp.c16_order_partial",
    "Verif.Cmp.c16_total_partial",
    "Verif.Cmp.c16_counterexample",
    "Verif.Cmp.c16_general",
    "Verif.Cmp.c16_ci_partial"
   ],
   "note": "Proved for strings without NUL; with an embedded NUL the comparison ignores the rest (counterexample proved)."
  },
  {
   "property": "C17",
   "status": "proved",
   "theorems": [
    "Verif.Gc.c17_start",
    "Verif.Gc.c17_collect",
    "Verif.Gc.c17_frame",
    "Verif.Gc.c17_mask"
   ],
   "note": "toheap2, relocate, cxm_hgc on word-addressed memory: isomorphism of the reachable heap, frame, mask test; realloc assumed to return memory not in use, size_t unbounded"
  },
  {
   "property": "C18",
   "status": "proved",
   "theorems": [
    "Verif.Gc.c18_finalize",
    "Verif.Gc.c18_kept"
   ],
   "note": "deallocator calls are exactly those for unreachable native blocks, once each"
  },
  {
   "property": "C19",
   "status": "proved",
   "theorems": [
    "Verif.Gc.c19_reserve",
    "Verif.Gc.c19_size"
   ],
   "note": "free space, live data at the top, heap size search; size_t unbounded, realloc succeeds"
  },
  {
   "property": "C20",
   "status": "partial",
   "theorems": [
    "Verif.Regs.c20_rgc_partial",
    "Verif.Regs.c20_rreserve_partial",
    "Verif.Regs.c20_strict_partial",
    "Verif.Regs.c20_initial",
    "Verif.Regs.c20_overread",
    "Verif.Regs.c20_counterexample"
   ],
   "note": "cxm_rgc reads outside the register file when it shifts the window (counterexample proved); register preservation proved when over-reads are harmless, and without that assumption when no read is out of bounds"
  },
  {
   "property": "C21",
   "status": "proved",
   "theorems": [
    "Verif.Wind.c21_dynamic_wind",
    "Verif.Wind.c21_normal"
   ],
   "note": ""
  },
  {
   "property": "C22",
   "status": "proved",
   "theorems": [
    "Verif.Promise.c22_promise",
    "Verif.Promise.c22_value",
    "Verif.Promise.c22_promise0",
    "Verif.Promise.c22_value0"
   ],
   "note": "force on promises from both 0.sf and LibL: value computed once, later forces return it, re-entrant force keeps the first value"
  },
  {
   "property": "C23",
   "status": "partial",
   "theorems": [
    "Verif.Cbuf.c23_ports_partial",
    "Verif.Cbuf.c23_string_partial",
    "Verif.Cbuf.c23_bytes",
    "Verif.Cbuf.c23_counterexample"
   ],
   "note": "get-output-string stops at the first NUL byte; counterexample proved; strings without NUL and bytevector ports proved in full"
  },
  {
   "property": "C24",
   "status": "partial",
   "theorems": [
    "Verif.App.c24_apply_partial",
    "Verif.App.c24_apply_limit",
    "Verif.App.c24_counterexample",
    "Verif.App.c24_rest",
    "Verif.App.c24_rest_too_few",
    "Verif.App.c24_argc",
    "Verif.App.c24_case_lambda"
   ],
   "note": "apply is limited to 1022 arguments by an assertion (counterexample and exact limit proved); rest arguments, argc dispatch and case-lambda proved in full"
  },
  {
   "property": "C25",
   "status": "partial",
   "theorems": [
    "Verif.Reader.c25_partial",
    "Verif.Reader.c25_counterexample"
   ],
   "note": "Proved for every datum without the least fixnum: -8388608 is written but not read back as a fixnum (c25_counterexample)."
  },
  {
   "property": "C26",
   "status": "proved",
   "theorems": [
    "Verif.Width.c26_width"
   ],
   "note": ""
  },
  {
   "property": "C27",
   "status": "proved",
   "theorems": [
    "Verif.Reader.c27_same",
    "Verif.Reader.c27_block",
    "Verif.Reader.c27_unterminated",
    "Verif.Reader.c27_datum_comment"
   ],
   "note": "For the initial reader and texts made of its tokens (all lexical atoms, parentheses, brackets, dot, quote, #fload, #; , #( and #&): c27_same says that two texts with the same tokens and any atmosphere between them give the same datum and leave the same tokens; c27_block characterises what a block comment extends over; c27_unterminated that a comment without end is an error; c27_datum_comment that #; skips exactly one datum. The tokens #read and #.( are excluded: they change the reader itself."
  },
  {
   "property": "C28",
   "status": "partial",
   "theorems": [
    "Verif.Reader.c28_radix_partial",
    "Verif.Reader.c28_prefixed_partial",
    "Verif.Reader.c28_partial",
    "Verif.Reader.c28_counterexample",
    "Verif.Reader.c28_unit_counterexample"
   ],
   "note": "Proved for all literals a+bi, a-bi, +bi, -bi (integers, fractions, decimals with exponents; radix 2, 8, 10, 16) and for -i; +i is read as -1+1i and a+i, a-i are rejected (c28_counterexample, c28_unit_counterexample). Infinities and NaNs as parts are not covered."
  },
  {
   "property": "C29",
   "status": "partial",
   "theorems": [
    "Verif.Reader.c29_lines",
    "Verif.Reader.c29_partial",
    "Verif.Reader.c29_counterexample"
   ],
   "note": "Proved for here-strings whose first line is not empty, or that have no line; a leading empty line is dropped by the code (c29_counterexample)."
  },
  {
   "property": "C30",
   "status": "proved",
   "theorems": [
    "Verif.Names.c30_no_capture",
    "Verif.Names.c30_not_reserved",
    "Verif.Names.c30_globals_kept"
   ],
   "note": "Locations are assumed below 10^33 (they are fixnums)."
  },
  {
   "property": "C31",
   "status": "proved",
   "theorems": [
    "Verif.Macros.c31_first_rule",
    "Verif.Macros.c31_round_trip",
    "Verif.Macros.c31_depth",
    "Verif.Macros.c31_same_depth",
    "Verif.Macros.c31_copy",
    "Verif.Macros.c31_ellipsis"
   ],
   "note": "Boxes in patterns and templates (a #F extension) are not modelled. c31_round_trip: a pattern accepted as its own template rebuilds the form exactly, or up to literals, for which it puts identifiers with the same meaning. c31_first_rule: first applicable rule. c31_copy: variable-free templates are copied with injectively renamed identifiers. c31_depth and c31_ellipsis: accepted rules never crash the expander; an ellipsis instantiates the subtemplate once per element."
  },
  {
   "property": "C32",
   "status": "proved",
   "theorems": [
    "Verif.Vecs.c32_wrap",
    "Verif.Vecs.c32_unwrap",
    "Verif.Vecs.c32_roundtrip"
   ],
   "note": ""
  },
  {
   "property": "C33",
   "status": "proved",
   "theorems": [
    "Verif.Boxes.c33_same_behaviour",
    "Verif.Boxes.c33_traces",
    "Verif.Boxes.c33_no_assignments"
   ],
   "note": "Results, the whole sequence of worlds and errors agree (Behaves) between the cell machine on the source and the box machine on the output, for every fair positional order of evaluation, any meaning of primitives; runs of the source that end in an error are not compared."
  },
  {
   "property": "C34",
   "status": "partial",
   "theorems": [
    "Verif.Cps.c34_partial",
    "Verif.Cps.c34_traces_partial",
    "Verif.Cps.c34_counterexample"
   ],
   "note": "Same result, same sequence of worlds, same divergence for all programs after assignment removal, any meaning of primitives, incl. letcc/withcc. Excluded: withcc whose first operand is simple but not a local variable, lambda or ktrap(); there the statement is false (c34_counterexample: operand evaluated late)."
  },
  {
   "property": "C35",
   "status": "partial",
   "theorems": [
    "Verif.Letrec.c35_fix_letrecs_partial",
    "Verif.Letrec.c35_counterexample"
   ],
   "note": "fix-letrecs preserves results and the order of effects for letrec with procedures and constants as operands and for letrec* with arbitrary operands, of which those classified as simple are procedures or constants; refuted in general (c35_counterexample: operands classified as simple are moved before earlier assignments)"
  },
  {
   "property": "C36",
   "status": "partial",
   "theorems": [
    "Verif.Fold.c36_constant_fold_partial",
    "Verif.Fold.c36_fold_counterexample",
    "Verif.Beta.c36_beta_substitute_partial",
    "Verif.Beta.c36_capture_counterexample",
    "Verif.Beta.c36_withcc_counterexample",
    "Verif.Beta.c36_counterexample"
   ],
   "note": "beta-substitute: proved for the substitutions recorded as good; refuted for copied procedures (capture) and for the removal of withcc. constant-fold: proved for programs whose type assertions mention no global variable; refuted otherwise (an assertion about a global variable is trusted after an assignment). Machines with a fixed order of evaluation for constant folding; moving non-transparent operands is not covered."
  },
  {
   "property": "C37",
   "status": "proved",
   "theorems": [
    "Verif.Lift.c37_extra_vars",
    "Verif.Lift.c37_closed"
   ],
   "note": "Input as produced by CPS conversion: no letcc/withcc, assignments to globals only, unique binders (Wf). Termination, minimality and completeness of the extra variables: c37_extra_vars; closedness and calls of the lifted procedures: c37_closed. A binding of a closure that is never used (removed by the next pass) does not count as a need."
  },
  {
   "property": "C38",
   "status": "proved",
   "theorems": [
    "Verif.Names.c38_valid",
    "Verif.Names.c38_injective",
    "Verif.Names.c38_globals",
    "Verif.Names.c38_locals"
   ],
   "note": "Names are byte strings; stamps below 10^33 (they are fixnums)."
  },
  {
   "property": "C39",
   "status": "proved",
   "theorems": [
    "Verif.Names.c39_labels_unique"
   ],
   "note": "Identifiers in one label list carry distinct time stamps."
  },
  {
   "property": "C40",
   "status": "proved",
   "theorems": [
    "Verif.Moves.c40_parallel_assignment",
    "Verif.Moves.c40_total"
   ],
   "note": ""
  },
  {
   "property": "C41",
   "status": "proved",
   "theorems": [
    "Verif.Lists.c41_sort",
    "Verif.Lists.c41_sort_copy"
   ],
   "note": ""
  },
  {
   "property": "C42",
   "status": "partial",
   "theorems": [
    "Verif.Str.c42_directory",
    "Verif.Str.c42_last_dot",
    "Verif.Str.c42_no_dot",
    "Verif.Str.c42_strip_extension_partial",
    "Verif.Str.c42_counterexample"
   ],
   "note": "Proved when the directory part has no dot; counterexample proved otherwise."
  },
  {
   "property": "C43",
   "status": "proved",
   "theorems": [
    "Verif.Str.c43_starts_with",
    "Verif.Str.c43_ends_with",
    "Verif.Str.c43_contains_at",
    "Verif.Str.c43_contains",
    "Verif.Str.c43_split",
    "Verif.Str.c43_split_none",
    "Verif.Str.c43_affixes",
    "Verif.Str.c43_member",
    "Verif.Str.c43_span"
   ],
   "note": ""
  },
  {
   "property": "C44",
   "status": "partial",
   "theorems": [
    "Verif.Lit.c44_string_partial",
    "Verif.Lit.c44_symbol_partial",
    "Verif.Lit.c44_char",
    "Verif.Lit.c44_rejected",
    "Verif.Lit.c44_counterexample"
   ],
   "note": "Strings and symbols of byte-sized characters without NUL and without a trigraph denote exactly their bytes, byte-sized characters always do, wider ones are rejected; the full claim is false: \"??=\" is emitted verbatim and read as #, and strings are cut at NUL (c44_counterexample)."
  },
  {
   "property": "C45",
   "status": "partial",
   "theorems": [
    "Verif.Interp.c45_simulation_partial",
    "Verif.Interp.c45_observable_partial",
    "Verif.Interp.c45_empty_letrec"
   ],
   "note": "Simulation between compiled closures and direct evaluation with named environments, for all expressions of fewer than 1000 parameters/arguments (the arity encoding refuses 1000 or more) and non-empty letrec (the expander drops empty ones; c45_empty_letrec shows it matters). Continuations, dynamic wind and host primitives other than cons/car/cdr and first-order operations are not modelled."
  },
  {
   "property": "C46",
   "status": "partial",
   "theorems": [
    "Verif.Arity.c46_fixed_partial",
    "Verif.Arity.c46_range_partial",
    "Verif.Arity.c46_rest_partial",
    "Verif.Arity.c46_fixed_counterexample",
    "Verif.Arity.c46_rest_counterexample"
   ],
   "note": "Proved for argument counts below 1000; counterexamples proved above."
  },
  {
   "property": "C47",
   "status": "proved",
   "theorems": [
    "Verif.Core.c47_free_vars",
    "Verif.Core.c47_free_lexvars",
    "Verif.Core.c47_referenced",
    "Verif.Core.c47_agreement"
   ],
   "note": "Exactness against an independent definition of free occurrence, and lock-step agreement of evaluation (with and without assignments) under environments that agree on the computed free local variables."
  },
  {
   "property": "C48",
   "status": "proved",
   "theorems": [
    "Verif.Sets.c48_members",
    "Verif.Sets.c48_nodup",
    "Verif.Sets.c48_subset",
    "Verif.Sets.c48_keep",
    "Verif.Sets.c48_posq",
    "Verif.Sets.c48_iota",
    "Verif.Sets.c48_reduce"
   ],
   "note": ""
  },
  {
   "property": "C49",
   "status": "proved",
   "theorems": [
    "Verif.Lit.c49_string_forest"
   ],
   "note": ""
  },
  {
   "property": "C50",
   "status": "proved",
   "theorems": [
    "Verif.Lit.c50_cleanup"
   ],
   "note": ""
  },
  {
   "property": "C51",
   "status": "partial",
   "theorems": [
    "Verif.Reader.c51_proper",
    "Verif.Reader.c51_partial",
    "Verif.Reader.c51_counterexample"
   ],
   "note": "Proved for texts with no dot or one dot (including that zero or several data after the dot are errors). A second dot, and a dot in front, are accepted by the code (c51_counterexample)."
  },
  {
   "property": "C52",
   "status": "proved",
   "theorems": [
    "Verif.Lift.c52_lambda_lift"
   ],
   "note": "Behaves (same results, same traces of worlds) for every program with Wf, every Sem and every fair order of evaluation depending on the number of operands; start states have constants in globals"
  },
  {
   "property": "C53",
   "status": "partial",
   "theorems": [
    "Verif.Cgen.c53_code_generation_partial",
    "Verif.Cgen.c53_counterexample",
    "Verif.Cgen.c53_counterexample_alloc"
   ],
   "note": "c53_code_generation_partial: simulation between the machine for programs and a machine for the generated code, same worlds and results, for all lifted programs without (if e e c) with effects in e and without allocations inside larger C expressions; both restrictions are necessary (c53_counterexample, c53_counterexample_alloc). Not modelled: local C variables of unboxed types."
  },
  {
   "property": "C54",
   "status": "proved",
   "theorems": [
    "Verif.Reader.c54_strings",
    "Verif.Reader.c54_chars"
   ],
   "note": "c54_strings, c54_chars: equivalences between what the reader accepts and an inductive definition of literals and their code points."
  },
  {
   "property": "C55",
   "status": "partial",
   "theorems": [
    "Verif.Copy.c55_copy",
    "Verif.Copy.c55_short_partial",
    "Verif.Copy.c55_short_fails",
    "Verif.Copy.c55_counterexample",
    "Verif.Copy.c55_fill",
    "Verif.Copy.c55_subvector",
    "Verif.Copy.c55_append",
    "Verif.Copy.c55_to_list",
    "Verif.Copy.c55_from_list",
    "Verif.Copy.c55_convert",
    "Verif.Copy.c55_map"
   ],
   "note": "Exact copying, filling, appending, converting and mapping proved; clipping with short destinations proved for at <= start and refuted otherwise (c55_counterexample, real bug)."
  },
  {
   "property": "C56",
   "status": "partial",
   "theorems": [
    "Verif.Nary.c56_left",
    "Verif.Nary.c56_sub",
    "Verif.Nary.c56_max",
    "Verif.Nary.c56_append",
    "Verif.Nary.c56_right_partial",
    "Verif.Nary.c56_compare_partial",
    "Verif.Nary.c56_compare_value",
    "Verif.Nary.c56_compare_short",
    "Verif.Nary.c56_counterexample",
    "Verif.Nary.c56_counterexample_fx",
    "Verif.Nary.c56_map",
    "Verif.Nary.c56_for_each",
    "Verif.Nary.c56_cons_star"
   ],
   "note": "Proved for + * gcd lcm - / max min append with arbitrary effects; comparisons for operands without effects and right-grouped fixnum operators for associative operations only, both refuted in general (c56_counterexample, c56_counterexample_fx); map and for-each proved."
  },
  {
   "property": "C57",
   "status": "partial",
   "theorems": [
    "Verif.Stackfn.c57_stack_functions_partial",
    "Verif.Stackfn.c57_accepted_partial",
    "Verif.Stackfn.c57_runs",
    "Verif.Stackfn.c57_counterexample",
    "Verif.Stackfn.c57_counterexample_arity"
   ],
   "note": "Proved for procedures whose calls of the function and of labels have the right number of arguments and whose fix groups are in tail position (behaviour), and whose named lets do not jump out (acceptance); the unrestricted claim is refuted by c57_counterexample and c57_counterexample_arity. Value conversions between C types are not modelled."
  },
  {
   "property": "C58",
   "status": "partial",
   "theorems": [
    "Verif.Expand.c58_ids_partial",
    "Verif.Expand.c58_ids_switch_partial",
    "Verif.Expand.c58_alpha_partial",
    "Verif.Expand.c58_reduce_env",
    "Verif.Expand.c58_counterexample",
    "Verif.Expand.c58_counterexample_begin"
   ],
   "note": "For programs that mention neither syntax-lambda nor %quote and %const: inserted numbers and names of lambda variables do not matter; also for all programs with a switch that refuses stale syntax-lambda expanders. The unrestricted claim is refuted (c58_counterexample), and the expansion may end early at a begin in operator position (c58_counterexample_begin)."
  },
  {
   "property": "C59",
   "status": "proved",
   "theorems": [
    "Verif.Expand.c59_expr",
    "Verif.Expand.c59_program",
    "Verif.Expand.c59_stop",
    "Verif.Expand.c59_settles",
    "Verif.Expand.c59_unique"
   ],
   "note": "Soundness and completeness of the direct-style rules (Verif/Expand/Direct.lean) for the model of 2.sf:301-637, with uniqueness of answers. The model is that of C58 (switch off)."
  },
  {
   "property": "C60",
   "status": "partial",
   "theorems": [
    "Verif.Expand.c60_closed_partial",
    "Verif.Expand.c60_expr_partial",
    "Verif.Expand.c60_counterexample"
   ],
   "note": "Refuted in general: a begin as an operator after internal definitions leaves an unbound variable (c60_counterexample). Proved for all derivations without dropped begins and with literals that are expressions."
  },
  {
   "property": "C61",
   "status": "partial",
   "theorems": [
    "Verif.Parse.c61_program_partial",
    "Verif.Parse.c61_expr_partial",
    "Verif.Parse.c61_keywords",
    "Verif.Parse.c61_texts",
    "Verif.Parse.c61_expanded_partial",
    "Verif.Parse.c61_counterexample"
   ],
   "note": "Full statement C61Full refuted by c61_counterexample: global variables named load, %include, %% are refused. Proved for all programs without such variables (c61_program_partial), also as the output of the expander of C58-C60 (c61_expanded_partial). Formals with a rest argument and %const are not in the language of the parser."
  },
  {
   "property": "C62",
   "status": "partial",
   "theorems": [
    "Verif.Labels.c62_shared_partial",
    "Verif.Labels.c62_write_partial",
    "Verif.Labels.c62_simple_partial",
    "Verif.Labels.c62_onto",
    "Verif.Labels.c62_counterexample",
    "Verif.Labels.c62_symbol_counterexample",
    "Verif.Labels.c62_string_line_end",
    "Verif.Labels.c62_escapes",
    "Verif.Labels.c62_list_grammar"
   ],
   "note": "write, write-shared and write-simple followed by read give a copy (an isomorphic one for write-shared). Missing: boxes whose content is on a cycle or shared, and symbols that look like numbers; both refuted by c62_counterexample and c62_symbol_counterexample. Flonums, records and procedures are not modelled."
  },
  {
   "property": "C63",
   "status": "partial",
   "theorems": [
    "Verif.Unbox.c63_unbox_values_partial",
    "Verif.Unbox.c63_untyped_formals",
    "Verif.Unbox.c63_uses",
    "Verif.Unbox.c63_new_ids",
    "Verif.Unbox.c63_counterexample",
    "Verif.Unbox.c63_global_counterexample"
   ],
   "note": "Proved for programs in which parameters used more than once with one C type only get values of this type, and no test of a global variable's type unboxes it: same worlds and result on a machine where typed variables only take values of their type (c63_unbox_values_partial); without such parameters relative to the untyped machine (c63_untyped_formals); uses and new ids without extra conditions. The full claim C63Full is false: c63_counterexample (parameters converted on entry though the use is in another branch), c63_global_counterexample (a global variable cached at a test). C types of primitives are parameters, not computed from the C text."
  },
  {
   "property": "C64",
   "status": "partial",
   "theorems": [
    "Verif.Fmt.c64_format_partial",
    "Verif.Fmt.c64_leftover",
    "Verif.Fmt.c64_operand",
    "Verif.Fmt.c64_argref",
    "Verif.Fmt.c64_argref_loop",
    "Verif.Fmt.c64_unboxed_operand",
    "Verif.Fmt.c64_result",
    "Verif.Fmt.c64_expression_type",
    "Verif.Fmt.c64_return_type",
    "Verif.Fmt.c64_typecheck",
    "Verif.Fmt.c64_counterexample"
   ],
   "note": "Proved for well-formed templates: the text written is the text the template stands for up to conversions left out, where a name may also start after an underscore (c64_format_partial); conversions of operands and results with matching type are left out (c64_operand, c64_unboxed_operand, c64_result); c-argref-ctype and the types of templates (c64_argref, c64_expression_type, c64_return_type, c64_typecheck). The full claim C64Full, with whole identifiers, is false: c64_counterexample. c-mangle and compilation of expressions to texts are not part of it."
  },
  {
   "property": "C65",
   "status": "partial",
   "theorems": [
    "Verif.Globals.c65_behaviour_partial",
    "Verif.Globals.c65_constants",
    "Verif.Globals.c65_assignments",
    "Verif.Globals.c65_counterexample",
    "Verif.Globals.c65_private_counterexample"
   ],
   "note": "Proved for programs in which constants are used in the order they are defined, definitions have no degenerate lets and are not calls without operands, defined procedures have no free local variables and private ones are not recursive; refuted without these conditions (c65_counterexample, c65_private_counterexample). Stack functions are not made (C57)."
  },
  {
   "property": "C66",
   "status": "proved",
   "theorems": [
    "Verif.Exc.c66_dynamic_environment",
    "Verif.Exc.c66_deterministic",
    "Verif.Exc.c66_worlds",
    "Verif.Exc.c66_raise",
    "Verif.Exc.c66_raise_continuable",
    "Verif.Exc.c66_guard"
   ],
   "note": "simplifications: one argument and result, thunks of dynamic-wind run in one step without jumps; the error object of a handler that returned does not hold the handler"
  },
  {
   "property": "C67",
   "status": "partial",
   "theorems": [
    "Verif.Modules.c67_loading_partial",
    "Verif.Modules.c67_calls",
    "Verif.Modules.c67_text",
    "Verif.Modules.c67_names",
    "Verif.Modules.c67_order_counterexample",
    "Verif.Modules.c67_effects_counterexample",
    "Verif.Modules.c67_declared_counterexample",
    "Verif.Modules.c67_names_counterexample",
    "Verif.Modules.c67_counterexample",
    "Verif.Modules.c67_head"
   ],
   "note": "Full statement C67Full. Proved: loading ends, modules needed that have definitions run once each, after those they need (c67_loading_partial); calls of LOAD(), includes and definitions at compile time. Refuted in the code: order of independent modules, modules without definitions, declarations of functions called, files with the same name."
  },
  {
   "property": "C68",
   "status": "proved",
   "theorems": [
    "Verif.Derived.c68_expansion",
    "Verif.Derived.c68_worlds"
   ],
   "note": "for all programs with the forms listed; formals without rest arguments; inserted variables are names of their own, as C58 shows"
  },
  {
   "property": "C69",
   "status": "partial",
   "theorems": [
    "Verif.Quasi.c69_quasiquote_partial",
    "Verif.Quasi.c69_nested_partial",
    "Verif.Quasi.c69_counterexample",
    "Verif.Quasi.c69_every_datum",
    "Verif.Quasi.c69_unique"
   ],
   "note": "Full statement C69Full. Proved for all templates without vectors that end in two elements that look like ,x (or another form); refuted for #(unquote x). Every datum is a template in exactly one way."
  },
  {
   "property": "C70",
   "status": "partial",
   "theorems": [
    "Verif.Records.c70_records_partial",
    "Verif.Records.c70_counterexample",
    "Verif.Records.c70_not_a_field",
    "Verif.Records.c70_no_record",
    "Verif.Records.c70_unchecked"
   ],
   "note": "Full statement C70Full refuted by c70_counterexample (a field with the name of the type). c70_records_partial: holds for all programs if no constructor parameter has the name of the type. c70_not_a_field, c70_no_record, c70_unchecked: what happens outside the specification."
  },
  {
   "property": "C71",
   "status": "partial",
   "theorems": [
    "Verif.Ports.c71_ports_partial",
    "Verif.Ports.c71_counterexample",
    "Verif.Ports.c71_counterexample_conditions",
    "Verif.Ports.c71_peek_consumes"
   ],
   "note": "Full statement C71Full refuted by c71_counterexample and c71_counterexample_conditions. c71_ports_partial: holds for all files and bytevectors, and for strings without NULs and (signed char) bytes from 128; read-line needs texts without NULs and lone carriage returns."
  },
  {
   "property": "C72",
   "status": "partial",
   "theorems": [
    "Verif.NumText.c72_string_to_number_partial",
    "Verif.NumText.c72_bad_prefix",
    "Verif.NumText.c72_accepts",
    "Verif.NumText.c72_counterexample",
    "Verif.NumText.c72_undefined",
    "Verif.NumText.c72_roundtrip",
    "Verif.NumText.c72_flonum_text",
    "Verif.NumText.c72_flonum_counterexample"
   ],
   "note": "equivalence with the grammar for all texts with at most one prefix of a kind and bodies without the letters of the refuted cases (c72_string_to_number_partial); every text of the grammar is read as what it denotes without exception (c72_accepts); round trip for all fixnums and radices; flonum texts for integral values below 10^15; the full statement is refuted (c72_counterexample, c72_flonum_counterexample)"
  },
  {
   "property": "C73",
   "status": "partial",
   "theorems": [
    "Verif.ListHeap.c73_length",
    "Verif.ListHeap.c73_reverse",
    "Verif.ListHeap.c73_reverse_bang",
    "Verif.ListHeap.c73_append",
    "Verif.ListHeap.c73_cons_star",
    "Verif.ListHeap.c73_make_list",
    "Verif.ListHeap.c73_list_copy",
    "Verif.ListHeap.c73_list_tail",
    "Verif.ListHeap.c73_list_ref",
    "Verif.ListHeap.c73_last_pair",
    "Verif.ListHeap.c73_memq",
    "Verif.ListHeap.c73_assq",
    "Verif.ListHeap.c73_counterexample"
   ],
   "note": "everything but list-set! for all heaps and lists (c73_length … c73_assq); list-set! is refuted (c73_counterexample)"
  },
  {
   "property": "C74",
   "status": "partial",
   "theorems": [
    "Verif.Front.c74_shape",
    "Verif.Front.c74_front_partial",
    "Verif.Front.c74_no_assignments",
    "Verif.Front.c74_counterexample"
   ],
   "note": "c74_shape: what fix-letrecs returns meets the conditions of remove-assignments; c74_front_partial: both passes together preserve the behaviour with the sequence of worlds; c74_no_assignments. Missing: the programs C35 leaves out (Good); without that the statement is false (c74_counterexample)."
  },
  {
   "property": "C75",
   "status": "partial",
   "theorems": [
    "Verif.StrMem.c75_constant_general",
    "Verif.StrMem.c75_constant_partial",
    "Verif.StrMem.c75_make",
    "Verif.StrMem.c75_string",
    "Verif.StrMem.c75_ref",
    "Verif.StrMem.c75_set",
    "Verif.StrMem.c75_bounds",
    "Verif.StrMem.c75_substring",
    "Verif.StrMem.c75_substring_bounds",
    "Verif.StrMem.c75_append",
    "Verif.StrMem.c75_copy",
    "Verif.StrMem.c75_fill",
    "Verif.StrMem.c75_case_partial",
    "Verif.StrMem.c75_case_undefined",
    "Verif.StrMem.c75_position_partial",
    "Verif.StrMem.c75_symbols_general",
    "Verif.StrMem.c75_symbols_partial",
    "Verif.StrMem.c75_utf8",
    "Verif.StrMem.c75_substring_utf8",
    "Verif.StrMem.c75_subutf8_general",
    "Verif.StrMem.c75_utf8_bounds",
    "Verif.StrMem.c75_subutf8_partial",
    "Verif.StrMem.c75_counterexample"
   ],
   "note": "Constructors, access, substring, append, copy, fill, whole conversions proved for all strings; constants, change of case, string-position, symbols and conversions of parts for strings without NUL (and ASCII for case); c75_*_general say what happens otherwise; c75_counterexample refutes the full statements, c75_case_undefined shows undefined behaviour."
  },
  {
   "property": "C76",
   "status": "partial",
   "theorems": [
    "Verif.Tower.c76_compare",
    "Verif.Tower.c76_compare_special",
    "Verif.Tower.c76_exact_ops",
    "Verif.Tower.c76_exact_div",
    "Verif.Tower.c76_inexact_ops",
    "Verif.Tower.c76_inexact_sign",
    "Verif.Tower.c76_representable",
    "Verif.Tower.c76_fxmul",
    "Verif.Tower.c76_predicates",
    "Verif.Tower.c76_finite_partial",
    "Verif.Tower.c76_parity_partial",
    "Verif.Tower.c76_exact",
    "Verif.Tower.c76_inexact",
    "Verif.Tower.c76_max",
    "Verif.Tower.c76_min",
    "Verif.Tower.c76_remainder",
    "Verif.Tower.c76_quotient_partial",
    "Verif.Tower.c76_modulo_partial",
    "Verif.Tower.c76_division_domain",
    "Verif.Tower.c76_gcd",
    "Verif.Tower.c76_gcd_domain",
    "Verif.Tower.c76_lcm",
    "Verif.Tower.c76_rounding",
    "Verif.Tower.c76_round_partial",
    "Verif.Tower.c76_counterexample",
    "Verif.Tower.c76_gcd1_partial",
    "Verif.Tower.c76_rational_partial"
   ],
   "note": "Proved: comparisons (also with infinities and nan), exact and inexact + - * /, sign, predicates, exact/inexact, max/min of any number of operands, remainder and gcd for integers of any size, lcm of fixnums, floor/ceiling/truncate. Partial: even?/odd? below 2^53, quotient and modulo up to 2^50, round for at most 52 binary places, finite? without nan, rational?/numerator/denominator of integers, gcd and lcm of one operand that is not negative. Refuted (c76_counterexample, for every arithmetic that meets the laws): odd? of 2^53, modulo of 2^60 by 3, rational? and denominator of 0.5, finite? of nan, (gcd -4), (log x b) with a flonum b."
  },
  {
   "property": "C77",
   "status": "partial",
   "theorems": [
    "Verif.PortLife.c77_safe",
    "Verif.PortLife.c77_owned",
    "Verif.PortLife.c77_no_leak",
    "Verif.PortLife.c77_files",
    "Verif.PortLife.c77_close",
    "Verif.PortLife.c77_closed",
    "Verif.PortLife.c77_collect_partial",
    "Verif.PortLife.c77_counterexample",
    "Verif.PortLife.c77_open",
    "Verif.PortLife.c77_files_tidy"
   ],
   "note": "memory safety, ownership, closing and absence of leaks of memory proved for all sequences of operations; finalization of ports: proved for ports in memory, refuted for files (c77_counterexample)"
  },
  {
   "property": "C78",
   "status": "partial",
   "theorems": [
    "Verif.TypeTests.c78_disjoint_partial",
    "Verif.TypeTests.c78_cons",
    "Verif.TypeTests.c78_vector",
    "Verif.TypeTests.c78_box",
    "Verif.TypeTests.c78_record",
    "Verif.TypeTests.c78_closure",
    "Verif.TypeTests.c78_static",
    "Verif.TypeTests.c78_native",
    "Verif.TypeTests.c78_keep",
    "Verif.TypeTests.c78_counterexample"
   ],
   "note": "disjointness, constructors and allocation proved for every heap after the first allocation; refuted before it (c78_counterexample)"
  },
  {
   "property": "C79",
   "status": "partial",
   "theorems": [
    "Verif.Chars.c79_box",
    "Verif.Chars.c79_convert_partial",
    "Verif.Chars.c79_compare",
    "Verif.Chars.c79_compare_ci",
    "Verif.Chars.c79_ascii",
    "Verif.Chars.c79_high",
    "Verif.Chars.c79_undefined",
    "Verif.Chars.c79_case",
    "Verif.Chars.c79_digit",
    "Verif.Chars.c79_constant",
    "Verif.Chars.c79_unboxed_counterexample",
    "Verif.Chars.c79_counterexample",
    "Verif.Chars.c79_lambda_counterexample"
   ],
   "note": "Boxing, conversions and comparisons for all characters below 2^23 in both representations; classes, case and -ci comparisons for one-byte characters, undefined above; digit-value; constants of one byte. Refuted in full by c79_counterexample (boxed and unboxed characters above 2^24 differ), c79_lambda_counterexample."
  },
  {
   "property": "C80",
   "status": "partial",
   "theorems": [
    "Verif.ByteVec.c80_make",
    "Verif.ByteVec.c80_bytevector",
    "Verif.ByteVec.c80_list",
    "Verif.ByteVec.c80_ref",
    "Verif.ByteVec.c80_set",
    "Verif.ByteVec.c80_writes",
    "Verif.ByteVec.c80_equal",
    "Verif.ByteVec.c80_copy",
    "Verif.ByteVec.c80_byte_words",
    "Verif.ByteVec.c80_byte_partial",
    "Verif.ByteVec.c80_byte_counterexample",
    "Verif.ByteVec.c80_negative_counterexample",
    "Verif.ByteVec.c80_counterexample"
   ],
   "note": "Constructors, access, comparison and copies against lists of bytes, with assertions and undefined behaviour told apart; runs of writes; byte? on fixnums. Refuted in full: byte? accepts non-numbers (c80_byte_counterexample), (make-bytevector -1) writes outside of its block (c80_negative_counterexample)."
  },
  {
   "property": "C81",
   "status": "partial",
   "theorems": [
    "Verif.Driver.c81_frame",
    "Verif.Driver.c81_sources_partial",
    "Verif.Driver.c81_success_partial",
    "Verif.Driver.c81_sequence",
    "Verif.Driver.c81_file",
    "Verif.Driver.c81_missing",
    "Verif.Driver.c81_failed",
    "Verif.Driver.c81_help",
    "Verif.Driver.c81_stdin",
    "Verif.Driver.c81_source_counterexample",
    "Verif.Driver.c81_stdin_counterexample",
    "Verif.Driver.c81_names_counterexample",
    "Verif.Driver.c81_counterexample"
   ],
   "note": "Frame, successful runs, order, failures, help and standard input for all compilers, file systems and argument lists. Refuted in full: sources named .c are replaced (c81_source_counterexample), sfc - has status 1 (c81_stdin_counterexample)."
  },
  {
   "property": "C82",
   "status": "partial",
   "theorems": [
    "Verif.Process.c82_exit",
    "Verif.Process.c82_status",
    "Verif.Process.c82_number_partial",
    "Verif.Process.c82_counterexample",
    "Verif.Process.c82_command_line"
   ],
   "note": "exit runs exactly the after thunks of the open extents, command-line gives exactly the arguments; refuted: (exit 256) is seen as success (c82_counterexample)"
  },
  {
   "property": "C83",
   "status": "partial",
   "theorems": [
    "Verif.IntLit.c83_literal",
    "Verif.IntLit.c83_base_partial",
    "Verif.IntLit.c83_base_counterexample",
    "Verif.IntLit.c83_base_sound",
    "Verif.IntLit.c83_counterexample",
    "Verif.IntLit.c83_fixnum",
    "Verif.IntLit.c83_wide"
   ],
   "note": "proved in full for LibM and LibL; for the basic library proved for decimal literals and non-negative octal and hexadecimal ones, refuted for the others (c83_counterexample)"
  },
  {
   "property": "C84",
   "status": "partial",
   "theorems": [
    "Verif.DecLit.c84_unambiguous",
    "Verif.DecLit.c84_decimal_partial",
    "Verif.DecLit.c84_exponent_partial",
    "Verif.DecLit.c84_point_partial",
    "Verif.DecLit.c84_marker_counterexample",
    "Verif.DecLit.c84_counterexample"
   ],
   "note": "proved for all decimal literals with the exponent marker e or none; refuted for the other markers (c84_counterexample)"
  }
 ]
}