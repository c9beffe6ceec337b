{
 "claims": [
  {
   "property": "C01",
   "status": "proved",
   "theorems": [
    "Verif.C01_lossless_unsigned",
    "Verif.C01_lossless_i64",
    "Verif.C01_lossless_float"
   ],
   "note": "All column types, all builder parameters, all inputs shorter than 2^63."
  },
  {
   "property": "C02",
   "status": "partial",
   "theorems": [
    "Verif.C02_seek_unsigned",
    "Verif.C02_seek_float",
    "Verif.C02_seek_i64_partial",
    "Verif.C02_seek_i64_panics"
   ],
   "note": "Proved without restriction for unsigned and float columns; for i64 false as stated: C02_seek_i64_panics is a machine-checked counterexample (i64::MIN / -1), and the claim is proved for all sought values not exactly 2^63 above a column value."
  },
  {
   "property": "C03",
   "status": "proved",
   "theorems": [
    "Verif.C03_join"
   ],
   "note": "Any number of inputs, any call sequence; inputs only assumed to meet the cursor contract."
  },
  {
   "property": "C04",
   "status": "proved",
   "theorems": [
    "Verif.C04_union"
   ],
   "note": "Any call sequence; also the list of inputs standing on the current value."
  },
  {
   "property": "C05",
   "status": "proved",
   "theorems": [
    "Verif.C05_subtract"
   ],
   "note": "Any call sequence; also the equality flags."
  },
  {
   "property": "C06",
   "status": "partial",
   "theorems": [
    "Verif.C06_filter_equal",
    "Verif.C06_constant",
    "Verif.C06_filter_partial",
    "Verif.C06_filter_iterate",
    "Verif.C06_interval_partial",
    "Verif.C06_filter_stale_current",
    "Verif.C06_filter_union_backwards",
    "Verif.C06_interval_seek_ignored",
    "Verif.C06_interval_min_bound"
   ],
   "note": "Equality filters and constants fully. Condition filter: all next/seek answers; `current` after exhaustion is false as stated (counterexample C06_filter_stale_current). Interval filter: with guards, counterexamples without them."
  },
  {
   "property": "C07",
   "status": "proved",
   "theorems": [
    "Verif.table_is_set_of_rows",
    "Verif.table_order_independent"
   ],
   "note": "All tables with at least one column, all rows over a linearly ordered value type with monotone storage types."
  },
  {
   "property": "C08",
   "status": "partial",
   "theorems": [
    "Verif.containsRow_iff",
    "Verif.rowPosition_isSome_iff",
    "Verif.rowPosition_index_partial",
    "Verif.containsRow_zero_arity_wrong"
   ],
   "note": "Proved for all tables with at least one column; false for tables without columns (containsRow_zero_arity_wrong)."
  },
  {
   "property": "C09",
   "status": "partial",
   "theorems": [
    "Verif.Plan.eval_table",
    "Verif.Plan.execute_rows_partial",
    "Verif.Plan.execute_builtins",
    "Verif.TJoin.generate_table",
    "Verif.TUnion.generate_table",
    "Verif.TSub.generate_table",
    "Verif.TFilter.generate_table",
    "Verif.TFn.generate_table",
    "Verif.append_nulls_partial",
    "Verif.repeated_null_panics",
    "Verif.project_reorder_rows",
    "Verif.project_to_nothing",
    "Verif.copied_column_wrong",
    "Verif.stored_storage"
   ],
   "note": "Proved for arbitrary trees of join, union, difference, filter and computed columns over stored tables, for appending nulls to such a tree, and for projection and reordering; and for keeping one row per values of the columns that are not single (single_spec, the operation behind node queries); aggregation is C16. Excluded by hypotheses because the code is wrong there: copied columns left of used ones (copied_column_wrong), filters below a union that is searched, constants beyond 64 signed bits, repeated nulls whose ids need 64 bits (repeated_null_panics)."
  },
  {
   "property": "C10",
   "status": "partial",
   "theorems": [
    "Verif.materialize_rows_partial",
    "Verif.materialize_table",
    "Verif.materialize_zero_arity_wrong"
   ],
   "note": "Proved for every scan that behaves like a tree and every cut that keeps at least one column; keeping no column is wrong for an empty scan (materialize_zero_arity_wrong)."
  },
  {
   "property": "C11",
   "status": "partial",
   "theorems": [
    "Verif.MDict.dictionary_bijection_partial",
    "Verif.MDict.dictionary_stable",
    "Verif.MDict.dictionary_add",
    "Verif.MDict.add_works",
    "Verif.BDict.dictionaries_refine",
    "Verif.DSpec.bijection",
    "Verif.DSpec.add_stable",
    "Verif.PairDict.Rep.add_eq",
    "Verif.MDict.empty_tuples_conflated",
    "Verif.MDict.maps_conflated",
    "Verif.MDict.unsigned_long_changed",
    "Verif.MDict.long_tag_changed",
    "Verif.MDict.long_label_skips"
   ],
   "note": "Proved for every history of add_datavalue/fresh_null calls with storable values (Storable: no maps, no labelled tuples without elements, labels only while IRI ids are below 2^32, language tags of at most 127 bytes); outside of that the property is false of the code, as the counterexample theorems show; integers beyond i64 come back as literals."
  },
  {
   "property": "C12",
   "status": "proved",
   "theorems": [
    "Verif.MDict.fresh_null",
    "Verif.MDict.fresh_nulls_distinct",
    "Verif.iterate_nulls",
    "Verif.append_dictionary_nulls_partial"
   ],
   "note": "For every history of the dictionary, for every rule application of every reached state of the engine, and for the operator that appends the nulls to a stored table (where a repeated variable needs ids of 32 bits, see C09)."
  },
  {
   "property": "C13",
   "status": "proved",
   "theorems": [
    "Verif.BBuf.buffer_reads_back",
    "Verif.BBuf.buffer_init_fresh",
    "Verif.BBuf.buffer_push_works",
    "Verif.BBuf.buffer_disjoint",
    "Verif.BBuf.empty_at_page_end"
   ],
   "note": "For every history of buffers and pushes on one thread (concurrent access is not modelled); reading an empty array pushed at the end of an exactly full page panics (empty_at_page_end), which the reads-back theorem excludes."
  },
  {
   "property": "C14",
   "status": "proved",
   "theorems": [
    "Verif.eval_fromTree",
    "Verif.eval_within_size",
    "Verif.runOps_no_underflow",
    "Verif.eval_rename",
    "Verif.specialFun_spec"
   ],
   "note": "Every function tree whose n-ary nodes have parameters (fromTree_empty_nary: without parameters the program panics), every table of function semantics, every assignment."
  },
  {
   "property": "C15",
   "status": "partial",
   "theorems": [
    "Verif.I64.add_exact",
    "Verif.I64.sub_exact",
    "Verif.I64.mul_exact",
    "Verif.I64.div_exact",
    "Verif.I64.neg_exact",
    "Verif.I64.abs_exact_partial",
    "Verif.I64.rem_exact_partial",
    "Verif.I64.sqrt_exact",
    "Verif.I64.log_exact",
    "Verif.I64.pow_exact",
    "Verif.I64.compare_exact",
    "Verif.I64.sum_sound",
    "Verif.I64.sum_defined_partial",
    "Verif.I64.sum_exact_nonneg",
    "Verif.I64.prod_sound",
    "Verif.I64.prod_exact_nonzero_partial",
    "Verif.I64.minimum_exact",
    "Verif.I64.maximum_exact",
    "Verif.I64.bitOr_bit",
    "Verif.I64.bitXor_bit",
    "Verif.I64.bitAnd_bit_partial",
    "Verif.I64.shl_exact_partial",
    "Verif.I64.shr_exact_partial",
    "Verif.I64.shru_exact_partial",
    "Verif.I64.abs_min_panics",
    "Verif.I64.rem_min_panics",
    "Verif.I64.bitAnd_sign",
    "Verif.I64.shift_panics",
    "Verif.I64.sum_order",
    "Verif.I64.prod_order"
   ],
   "note": "Exact or undefined for all 64-bit operands except where the code deviates: the last six theorems are the counterexamples (ABS and remainder at the minimum, sign bit of BITAND, shifts by 64 or more, order of SUM/PRODUCT)."
  },
  {
   "property": "C16",
   "status": "partial",
   "theorems": [
    "Verif.aggregateScan_spec",
    "Verif.aggregate_table",
    "Verif.aggregate_order_independent",
    "Verif.count_table",
    "Verif.max_table",
    "Verif.min_table",
    "Verif.sum_table_partial",
    "Verif.aggInstructions_spec",
    "Verif.sum_drops_f32",
    "Verif.sum_without_numbers",
    "Verif.sum_order_dependent",
    "Verif.max_by_type"
   ],
   "note": "The complete pipeline pruned scan, aggregate scan, stored table, for all tables. count/min/max complete; sum only for integer columns within range: it is false in general (sum_drops_f32, sum_without_numbers)."
  },
  {
   "property": "C17",
   "status": "proved",
   "theorems": [
    "Verif.reached_seminaive",
    "Verif.genSeminaive_spec"
   ],
   "note": "Every state reached by the engine, all rules without existential variables that meet RuleOK/HeadOK (functions, filters, negation, aggregates included)."
  },
  {
   "property": "C18",
   "status": "proved",
   "theorems": [
    "Verif.stratified_trace",
    "Verif.graph_trace",
    "Verif.rr_trace",
    "Verif.stops_at_fixpoint",
    "Verif.roundRobin_stable"
   ],
   "note": "All runs of the default strategy, of the dependency-graph strategy and of round robin, whatever the rules report; the graph library's topological order of components is a contract (CondOK)."
  },
  {
   "property": "C19",
   "status": "proved",
   "theorems": [
    "Verif.execute_sound",
    "Verif.reached_sound"
   ],
   "note": "Every reached state, also of nonterminating runs; rules without existential variables (these are C25)."
  },
  {
   "property": "C20",
   "status": "proved",
   "theorems": [
    "Verif.execute_complete",
    "Verif.execute_leastModel"
   ],
   "note": "Rules without existential variables (these are C25)."
  },
  {
   "property": "C21",
   "status": "partial",
   "theorems": [
    "Verif.execute_perfect_model_partial",
    "Verif.execute_stable",
    "Verif.stable_unique",
    "Verif.Example.reachability",
    "Verif.negated_atom_ignored"
   ],
   "note": "Proved for rules meeting ProgOK; false for negated atoms that share no variable with the rest of the body: negated_atom_ignored is a counterexample."
  },
  {
   "property": "C22",
   "status": "proved",
   "theorems": [
    "Verif.execute_rejects_iff"
   ],
   "note": "All rule lists; stratifiability is defined by levels of predicates, independent of the graph construction."
  },
  {
   "property": "C23",
   "status": "proved",
   "theorems": [
    "Verif.execute_terminates"
   ],
   "note": "Programs whose conditions assign only variables and constants; aggregates included."
  },
  {
   "property": "C24",
   "status": "proved",
   "theorems": [
    "Verif.execute_order_independent",
    "Verif.strategy_independent"
   ],
   "note": "Order of rules, atoms, conditions, facts, variable orders, component order, output predicates."
  },
  {
   "property": "C25",
   "status": "partial",
   "theorems": [
    "Verif.execute_model",
    "Verif.execute_isModel",
    "Verif.execute_universal",
    "Verif.exec_universal",
    "Verif.execute_certain",
    "Verif.regular_restricted_partial",
    "Verif.exclusive_restricted_partial",
    "Verif.UpToDate.iterate",
    "Verif.ChaseExample.chain_certain",
    "Verif.ChaseExample.empty_match_redundant",
    "Verif.ChaseExample.import_redundant",
    "Verif.ChaseExample.several_atoms_redundant"
   ],
   "note": "Proved in full: when the engine stops all rules (also with negation and aggregates in other rules) are satisfied, and for positive programs every intermediate and final state maps into every model, so null-free answers are exactly the certain answers. That nulls are only created for unsatisfied heads is false in general (three counterexample runs, *_redundant) and proved for heads that only the rule itself derives and for runs whose applications find matches."
  },
  {
   "property": "C26",
   "status": "proved",
   "theorems": [
    "Verif.reached_range",
    "Verif.Handler.coverRange_spec",
    "Verif.Eng.defrag_spec"
   ],
   "note": "Every reached state, every range of steps."
  },
  {
   "property": "C27",
   "status": "partial",
   "theorems": [
    "Verif.rowPosition_index_partial",
    "Verif.rowPosition_collision"
   ],
   "note": "Row positions identify rows if the last column has one storage type; rowPosition_collision is a counterexample otherwise."
  },
  {
   "property": "C28",
   "status": "proved",
   "theorems": [
    "Verif.reached_no_duplicates",
    "Verif.reached_updated",
    "Verif.reached_x_no_duplicates"
   ],
   "note": "Every reached state, also with existential rules; the report of updated predicates is proved for rules without existential variables."
  },
  {
   "property": "C29",
   "status": "proved",
   "theorems": [
    "Verif.Permut.permute_moves",
    "Verif.Permut.permute_invert",
    "Verif.Permut.permute_chain",
    "Verif.Permut.beq_iff",
    "Verif.Permut.isIdentity_iff",
    "Verif.Permut.permute_fromVector",
    "Verif.Permut.permute_fromUnsorted",
    "Verif.Permut.permute_fromTransformation"
   ],
   "note": "All permutations built by the public functions, all rows."
  },
  {
   "property": "C30",
   "status": "partial",
   "theorems": [
    "Verif.Trace.trace_genuine_partial",
    "Verif.Trace.list_genuine_partial",
    "Verif.Trace.Genuine.sound",
    "Verif.Trace.setOrders_first",
    "Verif.Trace.traceRel_spec",
    "Verif.Trace.assignment_spec",
    "Verif.Reached.hist",
    "Verif.Reached.negated",
    "Verif.TraceExample.reachability_explained",
    "Verif.TraceExample.empty_body_untraced",
    "Verif.TraceExample.nullary_untraced",
    "Verif.TraceExample.assignment_swapped",
    "Verif.TraceExample.wrong_conclusion",
    "Verif.TraceExample.aggregate_unchecked"
   ],
   "note": "Proved for every reached state, every list of ground facts, and every choice of the hash order and of the first query row, for programs without aggregates and existential variables whose rules have a positive atom and a variable with a value: tracing ends, stored facts get a genuine tree, others none; lists of inferences are genuine, closed and without repetition if all facts are stored. The restrictions are needed: proved counterexamples for rules without positive atoms, rules without variables, aggregates, several computed variables (wrong values are shown), and lists with facts that are not stored (wrong final conclusion). Missing: existential rules, import clauses, node and tree queries."
  },
  {
   "property": "C31",
   "status": "proved",
   "theorems": [
    "Verif.active_answers",
    "Verif.active_certain",
    "Verif.active_stable",
    "Verif.active_models",
    "Verif.active_stratifiable",
    "Verif.mem_active",
    "Verif.required_iff",
    "Verif.select_answers"
   ],
   "note": "The transformation is part of the default pipeline; Example.statements_answers is an instance for all inputs."
  },
  {
   "property": "C32",
   "status": "partial",
   "theorems": [
    "Verif.Lit.dsv_roundtrip_partial",
    "Verif.Lit.rdf_roundtrip_partial",
    "Verif.Lit.cell_roundtrip",
    "Verif.Lit.string_format",
    "Verif.Lit.double_format",
    "Verif.Lit.int_format",
    "Verif.Lit.string_cell",
    "Verif.Lit.string_cell_changed",
    "Verif.Lit.ulong_cell",
    "Verif.Lit.float_cell",
    "Verif.Lit.null_cell",
    "Verif.Lit.iri_cell",
    "Verif.Lit.tuple_cell",
    "Verif.Lit.FileExample.keeps_example",
    "Verif.Lit.FileExample.rdf_example"
   ],
   "note": "Round trip of whole tables proved for DSV (values in Survives) and RDF (all values except tuples, maps and single precision numbers, up to names of nulls). The other values are shown not to survive: strings with backslash, quote or line break in DSV cells, u64 from 2^63 on, floats, nulls, some IRIs, tuples. Texts are lists of records / statements (crates csv and oxrdfio are contracts), printing and parsing doubles is assumed inverse."
  },
  {
   "property": "C33",
   "status": "partial",
   "theorems": [
    "Verif.PBuf.import_spec_partial",
    "Verif.importPattern_spec",
    "Verif.import_rule_spec",
    "Verif.FTPattern.withSkips_result",
    "Verif.ImportExample.import_example",
    "Verif.ImportExample.partial_transformation_leaks"
   ],
   "note": "Proved for patterns whose transformations either succeed or fail at the first column (Pattern.Atomic) whenever another pattern follows; partial_transformation_leaks shows that a transformation that fails later leaves changed values for the following patterns."
  },
  {
   "property": "C34",
   "status": "proved",
   "theorems": [
    "Verif.BSet.ext_elems",
    "Verif.BSet.elems_empty",
    "Verif.BSet.elems_single",
    "Verif.BSet.elems_union",
    "Verif.BSet.elems_inter",
    "Verif.BSet.elems_set",
    "Verif.BSet.get_set",
    "Verif.BSet.elems_full",
    "Verif.BSet.subset_iff",
    "Verif.BSet.isSingle_iff",
    "Verif.TypeSet.isUnique_iff"
   ],
   "note": "All word sizes, all positions below the word size; also StorageTypeBitSet."
  },
  {
   "property": "C35",
   "status": "partial",
   "theorems": [
    "Verif.DV.cmp_total",
    "Verif.DV.cmp_swap",
    "Verif.DV.le_total",
    "Verif.DV.le_trans",
    "Verif.DV.le_antisymm",
    "Verif.DV.eq_iff_cmp",
    "Verif.DV.eq_equivalence",
    "Verif.DV.cmp_congr",
    "Verif.DV.cmp_int",
    "Verif.DV.cmp_domain",
    "Verif.DV.eq_int",
    "Verif.DV.hash_congr_partial",
    "Verif.DV.hash_zero_wrong",
    "Verif.Lit.same_number_partial",
    "Verif.Lit.gap_not_same"
   ],
   "note": "Order and equality proved for all values; spellings of one number give equal values outside 2^63..2^64-1 (same_number_partial, counterexample gap_not_same); hash/equality agreement holds only without float zeros (hash_zero_wrong is the counterexample)."
  },
  {
   "property": "C36",
   "status": "partial",
   "theorems": [
    "Verif.request_in_any_order",
    "Verif.request_reference_partial",
    "Verif.request_reference_wrong"
   ],
   "note": "Proved for all tables and histories except references requested in an order that does not commute with their permutation, for which request_reference_wrong shows that the claim is false."
  },
  {
   "property": "C37",
   "status": "proved",
   "theorems": [
    "Verif.TLookup.lookup_by_types"
   ],
   "note": "For every sequence of type sequences of a fixed non-zero arity."
  },
  {
   "property": "C38",
   "status": "proved",
   "theorems": [
    "Verif.rollback_restores",
    "Verif.request_in_any_order"
   ],
   "note": "For every history; tables that are references are covered by C36's restrictions."
  },
  {
   "property": "C39",
   "status": "partial",
   "theorems": [
    "Verif.Fn.type_prediction_sound",
    "Verif.Fn.type_prediction_tree",
    "Verif.Fn.constant_prediction_partial",
    "Verif.Fn.constant_prediction_wrong"
   ],
   "note": "Proved for every expression that applies a function, all built-in functions; for bare constants false beyond 64 signed bits (constant_prediction_wrong)."
  },
  {
   "property": "C40",
   "status": "partial",
   "theorems": [
    "Verif.Fn.contains_iff",
    "Verif.Fn.before_after",
    "Verif.Fn.before_after_absent",
    "Verif.Fn.before_after_text",
    "Verif.Fn.starts_iff",
    "Verif.Fn.ends_iff",
    "Verif.Fn.substring_spec",
    "Verif.Fn.substringLength_spec_partial",
    "Verif.Fn.substringLength_wrong",
    "Verif.Fn.length_spec",
    "Verif.Fn.concat_plain",
    "Verif.Fn.cast_decimal",
    "Verif.Fn.cast_not_a_boundary"
   ],
   "note": "All texts, whatever the segmentation into clusters. Three-parameter SUBSTR only if start+length is positive and fits 64 bits (substringLength_wrong shows what happens otherwise); INT aborts on some texts (cast_not_a_boundary)."
  },
  {
   "property": "C41",
   "status": "proved",
   "theorems": [
    "Verif.execute_certain",
    "Verif.execute_universal",
    "Verif.exec_universal",
    "Verif.Data.dataNull"
   ],
   "note": "Conditions may be equations and functions that are undefined for nulls (HomSafe); chain_certain is an instance."
  },
  {
   "property": "C42",
   "status": "partial",
   "theorems": [
    "Verif.exportsT_spec_partial",
    "Verif.exportsT_all",
    "Verif.exportsT_edb",
    "Verif.setDefaultOutputs_requested",
    "Verif.export_all_drops",
    "Verif.export_edb_drops"
   ],
   "note": "keep, none and the default outputs are as announced; idb also exports predicates that only have facts; all and edb do not export what they announce (export_all_drops, export_edb_drops), their exact effect is proved instead."
  },
  {
   "property": "C43",
   "status": "partial",
   "theorems": [
    "Verif.derives_norm_partial",
    "Verif.execute_source_stable_partial",
    "Verif.execute_source_closed",
    "Verif.execute_source_rejects",
    "Verif.source_stable_unique",
    "Verif.execute_source_terminates",
    "Verif.SourceExample.prog_result",
    "Verif.SourceExample.sum_derives",
    "Verif.SourceExample.unsafe_condition_ignored",
    "Verif.SourceExample.two_aggregates_lost",
    "Verif.SourceExample.existential_term_lost"
   ],
   "note": "Proved for accepted rules that satisfy the unchecked conditions SExtra (and, for runs of the engine, the conditions negShared and negLocal of SRuleOK); the theorems unsafe_condition_ignored, two_aggregates_lost and existential_term_lost show that it fails for accepted rules without SExtra. Rules with existential variables and import clauses are not covered."
  },
  {
   "property": "C44",
   "status": "proved",
   "theorems": [
    "Verif.VarOrder.setOrders_spec",
    "Verif.VarOrder.orderForRule_spec",
    "Verif.VarOrder.generateOrders_spec",
    "Verif.VarOrder.preferableOrders_spec"
   ],
   "note": ""
  },
  {
   "property": "C45",
   "status": "partial",
   "theorems": [
    "Verif.validate_valid_partial",
    "Verif.mem_safeVars",
    "Verif.checkHead_spec",
    "Verif.checkNegative_spec",
    "Verif.SourceExample.unsafe_condition_ignored",
    "Verif.SourceExample.two_aggregates_lost",
    "Verif.SourceExample.existential_term_lost"
   ],
   "note": "The listed conditions are guaranteed for accepted rules, except that there can be aggregates in several head atoms; conditions with variables without a value and existential variables in head expressions are accepted, too. Checks of types and numbers of arguments are not modelled."
  },
  {
   "property": "C46",
   "status": "partial",
   "theorems": [
    "Verif.filterImports_stable_partial",
    "Verif.internalize_stable",
    "Verif.pushImport_read",
    "Verif.PushRule.importRule",
    "Verif.FilterExample.good_ok",
    "Verif.FilterExample.condition_lost",
    "Verif.FilterExample.derived_facts_lost",
    "Verif.FilterExample.union_lost",
    "Verif.FilterExample.repeated_variable_wrong",
    "Verif.FilterExample.skipped_columns_wrong",
    "Verif.FilterExample.two_obsolete_panic"
   ],
   "note": "Proved under the conditions FilterOK: one rule for each internalized predicate, which is not derived by other rules; columns are not skipped by the user; the variables of conditions occur in the head or in an assignment; rules that are considered obsolete are projections. The theorems condition_lost, derived_facts_lost, union_lost, repeated_variable_wrong, skipped_columns_wrong and two_obsolete_panic show that the property fails without these conditions."
  },
  {
   "property": "C47",
   "status": "partial",
   "theorems": [
    "Verif.Lit.decimal_accepts",
    "Verif.Lit.integer_accepts",
    "Verif.Lit.bounded_accepts",
    "Verif.Lit.unsignedLong_accepts",
    "Verif.Lit.decimal_value",
    "Verif.Lit.decimal_no_panic",
    "Verif.Lit.same_number_partial",
    "Verif.Lit.different_number",
    "Verif.Lit.typedLit_stable",
    "Verif.Lit.gap_not_same",
    "Verif.Lit.float_changed",
    "Verif.Lit.FileExample.decimal_example",
    "Verif.Lit.short_example"
   ],
   "note": "Acceptance, value and absence of panics proved for all texts and all decimal and bounded integer datatypes; spellings of one number give equal values except for numbers from 2^63 to 2^64-1 (Gap): gap_not_same shows that 18446744073709551615 and 18446744073709551615.0 differ."
  },
  {
   "property": "C48",
   "status": "partial",
   "theorems": [
    "Verif.Lit.dsv_import",
    "Verif.Lit.dsv_export",
    "Verif.Lit.dsv_export_records",
    "Verif.Lit.rdf_import_partial",
    "Verif.Lit.rdf_export",
    "Verif.Lit.rdf_export_triples",
    "Verif.Lit.rdf_malformed_ignored",
    "Verif.Lit.parse_bracketed",
    "Verif.Lit.parse_panic",
    "Verif.Lit.rdf_malformed_shifts",
    "Verif.Lit.parse_panics",
    "Verif.Lit.FileExample.import_example",
    "Verif.Lit.FileExample.record_example",
    "Verif.Lit.FileExample.wellFormed_example",
    "Verif.Lit.firstMalformed_example"
   ],
   "note": "DSV import proved for all files whose cells do not panic (parse_panic says which do). RDF import proved for files without malformed literals in imported columns, and statements whose first imported column is malformed are ignored (rdf_malformed_ignored); rdf_malformed_shifts shows that a literal malformed elsewhere shifts all later rows. The crates csv and oxrdfio are contracts."
  },
  {
   "property": "C49",
   "status": "partial",
   "theorems": [
    "Verif.XPlan.executePlan_rows_partial",
    "Verif.XPlan.executeDb_rows_partial",
    "Verif.XPlan.execute_core",
    "Verif.XPlan.permanents_spec",
    "Verif.XPlan.Example.executable",
    "Verif.XPlan.Example.result_sem"
   ],
   "note": "Proved for all plans of fetch, join, union, subtract, filter, function, projection, renaming and zero nodes that meet Executable (conditions that all plans of the engine meet: expressions use available columns, functions and projections are requested in the order in which they are written, see finding 33/34), for all databases and histories. Missing: aggregate, null, single and import nodes; tables without columns in the version with a database."
  },
  {
   "property": "C50",
   "status": "proved",
   "theorems": [
    "Verif.Parse.parse_written",
    "Verif.Parse.programText_unique",
    "Verif.Parse.expression_written",
    "Verif.Parse.expression_unique",
    "Verif.Parse.statement_unique",
    "Verif.Parse.parse_never_panics",
    "Verif.Parse.parse_ok_iff",
    "Verif.Parse.program_total",
    "Verif.Parse.program_bound",
    "Verif.Parse.parse_after",
    "Verif.Parse.parse_error_skips",
    "Verif.Parse.parse_one_error",
    "Verif.Parse.Example.example_program",
    "Verif.Parse.Example.example_parse",
    "Verif.Parse.Example.example_error"
   ],
   "note": "The grammar is ParseGrammar and ParseProgramText; texts outside of it that the parser nevertheless accepts (comment directly after a closing parenthesis, unknown directives, unknown aggregates) are covered by the totality theorems only. Positions and error messages are not modelled; parse_error_skips is stated for line feeds (not CRLF)."
  },
  {
   "property": "C51",
   "status": "partial",
   "theorems": [
    "Verif.Tr.text_answers_partial",
    "Verif.Tr.text_rejected_partial",
    "Verif.Tr.text_unique_partial",
    "Verif.Tr.text_terminates_partial",
    "Verif.Tr.body_holds",
    "Verif.Tr.derives_iff",
    "Verif.Tr.Example.parse_text",
    "Verif.Tr.Example.read_text",
    "Verif.Tr.Example.declared",
    "Verif.Tr.Example.covered",
    "Verif.Tr.Example.stratified",
    "Verif.Tr.Example.noNewValues",
    "Verif.Tr.Example.run",
    "Verif.Tr.AggExample.parse_text",
    "Verif.Tr.AggExample.covered",
    "Verif.Tr.AggExample.stratified",
    "Verif.Tr.AggExample.run",
    "Verif.Tr.LocalExample.parse_text",
    "Verif.Tr.LocalExample.covered",
    "Verif.Tr.LocalExample.derives",
    "Verif.Data.text_answers_data_partial",
    "Verif.Data.Example.run"
   ],
   "note": "The specification is TextMeaning. Rules with existential variables are C54. Missing: parameters; tuples, maps and function terms (not supported by the evaluation); aggregates inside larger expressions. Conditions that relate a local variable of a negated atom to a variable outside of it, negated atoms without bound arguments and aggregates in several head atoms are excluded because they are evaluated wrongly (see the findings for C43). The validation between translation and execution is C45; Covered contains what it guarantees."
  },
  {
   "property": "C52",
   "status": "proved",
   "theorems": [
    "Verif.Tr.number_whole",
    "Verif.Tr.number_every",
    "Verif.Tr.number_real",
    "Verif.Tr.encoded_value",
    "Verif.Tr.encoded_every",
    "Verif.Tr.encoded_bases",
    "Verif.Tr.accepted_declared",
    "Verif.Tr.Declared.unique",
    "Verif.Tr.accepted_names",
    "Verif.Tr.Example.marker_ignored",
    "Verif.Tr.Example.large_integer",
    "Verif.Tr.Example.large_encoded"
   ],
   "note": "Reading the text of a floating point number is the parameter Lib.parseF32/parseF64. Numerals too large for a floating point number panic (finding)."
  },
  {
   "property": "C53",
   "status": "proved",
   "theorems": [
    "Verif.execute_source_model",
    "Verif.execute_source_universal",
    "Verif.execute_source_certain",
    "Verif.model_norm",
    "Verif.ruleCfgs_spec",
    "Verif.ChaseSourceExample.prog_ok",
    "Verif.ChaseSourceExample.prog_certain",
    "Verif.ChaseSourceExample.helper_facts_lost"
   ],
   "note": "The program must not use the helper predicates _SATISFIED_i (helper_facts_lost shows what happens otherwise), and its rules must be valid in the sense of SValid and SBodyOK (see C43, C45). The arities of helper predicates and the orders are computed, not assumed."
  },
  {
   "property": "C54",
   "status": "partial",
   "theorems": [
    "Verif.Tr.text_model_partial",
    "Verif.Tr.text_universal_partial",
    "Verif.Tr.text_certain_partial",
    "Verif.Tr.ProgramFor.model",
    "Verif.Tr.ChaseExample.parse_text",
    "Verif.Tr.ChaseExample.covered",
    "Verif.Tr.ChaseExample.plainExistential",
    "Verif.Tr.ChaseExample.noHelpers",
    "Verif.Tr.ChaseExample.positive",
    "Verif.Tr.ChaseExample.prog_run",
    "Verif.Tr.ChaseExample.certain"
   ],
   "note": "The specification is Model in TextMeaning. Partial in the same sense as C51 (Covered). The text must not name the helper predicates _SATISFIED_i (finding 51)."
  },
  {
   "property": "C55",
   "status": "partial",
   "theorems": [
    "Verif.Data.eval_tree",
    "Verif.Data.app_sto",
    "Verif.Data.integer_functions",
    "Verif.Data.integer_comparisons",
    "Verif.Data.integer_lists",
    "Verif.Data.integer_shifts",
    "Verif.Data.boolean_functions",
    "Verif.Data.text_functions",
    "Verif.Data.concat_function",
    "Verif.Data.substring_function_partial",
    "Verif.Data.kind_functions",
    "Verif.Data.conversion_functions",
    "Verif.Data.double_functions",
    "Verif.Data.integer_arithmetic",
    "Verif.Data.count_rows",
    "Verif.Data.extremal_rows",
    "Verif.Data.sum_rows_partial",
    "Verif.Data.dataNull",
    "Verif.Data.opFn_total",
    "Verif.Data.single_argument",
    "Verif.Data.text_answers_data_partial",
    "Verif.Data.Example.run",
    "Verif.Data.Example.someLib_ok"
   ],
   "note": "Every name of a function is given its meaning without the tables of functions, and eval_tree relates nested operations of rules to the function trees (C14). Partial: sums only of integers whose positive and negative parts fit 64 bits (false in general, C16); the exceptions of C15 and C40 (ABS, remainder and shifts at the limits, SUBSTR with odd lengths); the sign of float zeros is lost when they are stored (NoZero, Clean)."
  },
  {
   "property": "C56",
   "status": "partial",
   "theorems": [
    "Verif.Dem.import_sound",
    "Verif.Dem.import_complete_partial",
    "Verif.Dem.import_exact_partial",
    "Verif.Dem.import_ends_partial",
    "Verif.Dem.two_large_factors_panic",
    "Verif.Dem.failure_ignored",
    "Verif.Dem.long_query_never_ends",
    "Verif.Dem.too_large_never_ends",
    "Verif.Dem.tableServer_serves"
   ],
   "note": "The model covers the combinations of old and new bindings, the distribution over pages, pages that are divided because a query is too long or because the server refuses it (HTTP 413), and empty groups. import_sound: every delivered row is a row of the endpoint. import_complete_partial: if the import ends and no query fails otherwise then no demanded row is missing; import_exact_partial: exactly the demanded rows if no query is refused. The full property is false of the code: two groups of at least 32000 bindings panic, failed queries are ignored so that rows are silently missing, a single binding whose query is too long and refused queries with fewer than 32000 bindings are tried again for ever."
  },
  {
   "property": "C57",
   "status": "partial",
   "theorems": [
    "Verif.Dem.import_rule_partial",
    "Verif.Dem.import_rule_loaded_partial",
    "Verif.Dem.import_body",
    "Verif.Dem.ImportRun.inv",
    "Verif.Dem.Example.serve_fetches",
    "Verif.Dem.Example.reader_fetches",
    "Verif.Dem.Example.rule_ok",
    "Verif.Dem.Example.second_state",
    "Verif.Dem.Example.negation_before_import",
    "Verif.Dem.Example.condition_lost",
    "Verif.Dem.Example.constant_lost",
    "Verif.Dem.Example.computed_not_bound",
    "Verif.Dem.Example.negation_over_factors",
    "Verif.Dem.Example.negation_before_function"
   ],
   "note": "The model covers the factors of the join, constant operations, binding patterns, requests for new bindings, both ways of merging, negated import clauses and the tables that are stored. import_rule_partial: for every history (ImportRun) and every step the matches are those over the completely loaded tables that use a new fact; import_rule_loaded_partial: they are the matches that the engine computes for the rule without import clauses over loaded tables. Both for rules whose positive atoms are connected, under the conditions ImportOK. The full property is false of the code: six counterexample rules (negated atoms with imported variables, conditions that are consumed by negated imports, constants, computed variables over several factors, negated atoms over several factors, computed variables in negated imports). Not proved: rules with several factors."
  },
  {
   "property": "C58",
   "status": "proved",
   "theorems": [
    "Verif.flat_derives",
    "Verif.flat_stable",
    "Verif.flat_model",
    "Verif.flat_stratifiable",
    "Verif.flat_validate",
    "Verif.flat_valid",
    "Verif.execute_flat_stable_partial",
    "Verif.Tr.text_flat_answers_partial",
    "Verif.Tr.text_flat_rejected_partial",
    "Verif.Tr.text_flat_model_partial",
    "Verif.Tr.text_flat_certain_partial",
    "Verif.FlattenExample.lprog_flat",
    "Verif.FlattenExample.lprog_plain",
    "Verif.FlattenExample.lprog_ok",
    "Verif.FlattenExample.lprog_stable",
    "Verif.FlattenExample.open_rejected",
    "Verif.FlattenExample.closed_accepted"
   ],
   "note": "The transformation itself is proved without restrictions (flat_*: the hypotheses are that no name starts with an underscore, which the parser guarantees, and that expressions in positive atoms use safe variables, which the validation checks). The theorems about executions and texts inherit the restrictions of C43, C51 and C54 and are called partial for that reason."
  },
  {
   "property": "C59",
   "status": "partial",
   "theorems": [
    "Verif.Inc.incremental_stable_partial",
    "Verif.Sq.sparql_imports_partial",
    "Verif.Inc.inc_derives",
    "Verif.Inc.incremental_onlyImported",
    "Verif.Inc.incremental_restricted_partial",
    "Verif.Inc.importVar_inj",
    "Verif.Inc.privTag_inj",
    "Verif.IncExample.prog1_new",
    "Verif.IncExample.prog1_ok",
    "Verif.IncExample.prog1_restricted",
    "Verif.SqExample.progP_ok",
    "Verif.SqExample.progP_queriesOK",
    "Verif.SqExample.progP_result",
    "Verif.IncExample.two_endpoints_lost",
    "Verif.IncExample.same_variable_lost",
    "Verif.IncExample.anonymous_joined",
    "Verif.IncExample.anonymous_unrestricted"
   ],
   "note": "All of TransformationIncremental is modelled: the choice of imports with both passes, the check for unrestricted atoms, the new rules and the new program. Proved for all programs that satisfy ProgramOK: every stable model of the program gives one of the transformed program with the same visible predicates, and vice versa. ProgramOK excludes what the code gets wrong, with counterexamples: imports from two endpoints in one rule are dropped (two_endpoints_lost), different constants in the same position of negated imports make a rule inapplicable (same_variable_lost), anonymous variables of import clauses are joined with each other (anonymous_joined). The statement on restricted queries is false in the presence of anonymous variables (anonymous_unrestricted)."
  },
  {
   "property": "C60",
   "status": "partial",
   "theorems": [
    "Verif.Sq.sparql_imports_partial",
    "Verif.Sq.merge_imports_partial",
    "Verif.Sq.merge_stable_partial",
    "Verif.Sq.mergeRule_cases",
    "Verif.Sq.atomRule_derives",
    "Verif.Sq.merged_derives",
    "Verif.Sq.mergeAndPush_ok",
    "Verif.Sq.merge_clause",
    "Verif.Sq.push_clause",
    "Verif.Sq.merge_rows",
    "Verif.Sq.push_rows",
    "Verif.Sq.eval_rename",
    "Verif.Sq.eval_dom",
    "Verif.SqExample.progJ_merge",
    "Verif.SqExample.progJ_ok",
    "Verif.SqExample.progJ_stable",
    "Verif.SqExample.progK_merge",
    "Verif.SqExample.progK_ok",
    "Verif.SqExample.progK_result",
    "Verif.SqExample.progP_merge",
    "Verif.SqExample.progP_queriesOK",
    "Verif.SqExample.progP_result",
    "Verif.SqExample.negation_merged_wrong",
    "Verif.SqExample.negative_only_lost",
    "Verif.SqExample.negative_only_wrong",
    "Verif.SqExample.failed_merge_lost",
    "Verif.SqExample.shared_constant_panics",
    "Verif.SqExample.head_variable_lost",
    "Verif.SqExample.distinct_column_lost",
    "Verif.SqExample.negations_merged"
   ],
   "note": "The rows of a merged query are the join of the rows of both queries, with the constants, for all patterns (merge_rows, push_rows); the program with merged imports has the same stable models on all predicates except the private ones of imports, whether the import remains a clause of the rule or becomes an import of the program (merge_imports_partial). The composition of both transformations is sparql_imports_partial: a program whose SPARQL imports are turned into clauses and merged has the answers of the program that loads them completely. Partial: only for rules whose import clauses are all positive; queries must be projections with a value in each column and without variables that are only in expressions and look like new names or end in Label; negated imports, failed merges and constants for variables that occur elsewhere are handled wrongly by the code, see the counterexamples."
  },
  {
   "property": "C61",
   "status": "partial",
   "theorems": [
    "Verif.Rev.run_refines",
    "Verif.Rev.submit_handle",
    "Verif.Rev.ruleById_statement",
    "Verif.Rev.ruleById_rule",
    "Verif.RevExample.ops_submit",
    "Verif.Rev.handle_statements",
    "Verif.Rev.handle_unchanged",
    "Verif.Rev.resolve_root",
    "Verif.Rev.find_component_partial",
    "Verif.Rev.rightmost_at",
    "Verif.Rev.materialize_rules",
    "Verif.RevExample.ops_handles",
    "Verif.RevExample.ops_model",
    "Verif.RevExample.ops_root",
    "Verif.RevExample.component_wrong",
    "Verif.RevExample.component_lost",
    "Verif.RevExample.cleared_panics",
    "Verif.RevExample.cleared_other"
   ],
   "note": "The model of pipelines, commits and handles refines a specification without ids for all histories of operations on any number of open commits (run_refines): the programs of handles are what was kept and added (handle_statements), never change (handle_unchanged), and origins of rules are resolved to the rule that they were made from (resolve_root). Partial: the lookup of components by id is wrong in the code; proved is what it returns (find_component_partial: the last component of the last component and so on), with counterexamples component_wrong and component_lost; the rules of a materialized program are right (materialize_rules) but not after clear_exports or clear_imports (cleared_panics, cleared_other)."
  },
  {
   "property": "C62",
   "status": "partial",
   "theorems": [
    "Verif.Glob.substitution_solution",
    "Verif.Glob.transform_meaning_partial",
    "Verif.Glob.validate_ends",
    "Verif.Glob.validate_spec",
    "Verif.Glob.eval_apply",
    "Verif.Glob.ground_apply",
    "Verif.Glob.progG_accepted",
    "Verif.Glob.progG_transform",
    "Verif.Glob.progG_values",
    "Verif.Glob.progG_meaning",
    "Verif.Glob.cyclic_rejected",
    "Verif.Glob.cyclic_external",
    "Verif.Glob.missing_rejected",
    "Verif.Glob.redefinition_rejected",
    "Verif.Glob.nested_accepted",
    "Verif.Glob.alias_rejected",
    "Verif.Glob.undefined_accepted",
    "Verif.Glob.undeclared_fact"
   ],
   "note": "Proved for all declarations that validate_parameters accepts and whose expressions have no variables other than parameters, and all values from outside: both loops end, every parameter gets a value, the values are the only solution of the declarations, and every term of the transformed program has the value that it has under this solution and contains no declared parameter. Partial, because the hypothesis on expressions is not ensured by the code (nested_accepted), undefined values of expressions are accepted (undefined_accepted) and undeclared parameters remain (undeclared_fact). Operations are an arbitrary partial function of the values of their arguments; distinct variables of aggregates are left out."
  },
  {
   "property": "C63",
   "status": "partial",
   "theorems": [
    "Verif.Ar.validate_iff",
    "Verif.Ar.accepted_run",
    "Verif.Ar.accepted_normalizes_partial",
    "Verif.Ar.active_spec",
    "Verif.Ar.used_spec",
    "Verif.Ar.validate_fold",
    "Verif.Ar.run_fold",
    "Verif.Ar.progA_accepted",
    "Verif.Ar.progA_active",
    "Verif.Ar.progA_normalizes",
    "Verif.Ar.progA_arities",
    "Verif.Ar.inconsistent_rejected",
    "Verif.Ar.unknown_rejected",
    "Verif.Ar.unused_accepted",
    "Verif.Ar.lostRule_panics",
    "Verif.Ar.undefinedFact_panics",
    "Verif.Ar.import_order",
    "Verif.Ar.export_not_used"
   ],
   "note": "Proved for all programs: validation ends and accepts exactly the programs in which no predicate has two arities and unknown arities are resolved by previous statements (validate_iff); the active program consists of the statements that matter (active_spec); normalization of the active program of an accepted program fails exactly if an import or export without an arity has no previous statement with one, and otherwise gives every predicate the only arity with which it is written (accepted_run). Partial, because this may really happen (lostRule_panics, undefinedFact_panics); it cannot under the conditions of accepted_normalizes_partial. Transformations after TransformationActive (incremental imports, filters of imports) are not part of this model."
  },
  {
   "property": "C64",
   "status": "proved",
   "theorems": [
    "Verif.Js.json_represented",
    "Verif.Js.json_paths",
    "Verif.Js.json_lossless",
    "Verif.Js.readLoop_spec",
    "Verif.Js.visit_spec",
    "Verif.Js.enc_unique",
    "Verif.Js.Examples.doc_table",
    "Verif.Js.Examples.doc_path",
    "Verif.Js.Examples.doc_ids"
   ],
   "note": "For all documents: the reader ends, its table represents the document with id 0 (json_represented), paths in the document correspond to joins of rows with the types and values at the end (json_paths), and tables that are equal as sets belong to equal documents (json_lossless). Documents are trees, parsing is left out; order of members is the order of serde_json's map."
  },
  {
   "property": "C65",
   "status": "partial",
   "theorems": [
    "Verif.Trace.TreeQ.tree_genuine_partial",
    "Verif.Trace.TreeQ.treeRec_spec",
    "Verif.Trace.TreeQ.treeHeads_spec",
    "Verif.Trace.TreeQ.combos",
    "Verif.Trace.TreeQ.treeTry_spec",
    "Verif.Trace.TreeQ.addNegation_spec",
    "Verif.Trace.TreeQ.Explains.true",
    "Verif.TreeExample.reachability_tree",
    "Verif.TreeExample.guarded_response",
    "Verif.TreeExample.no_response",
    "Verif.TreeExample.wrong_rule",
    "Verif.TreeExample.query_fails"
   ],
   "note": "Proved for every reached state, all lists of facts, and all orders of the hash map and of query results, for programs without aggregates and existential variables whose rules have a positive atom and a variable with a value, if no rule was removed before the execution: the query ends without failing, a response is genuine, there is one if all facts are true and there is only one fact or no rule has two head atoms with the same predicate, and there is none if a fact is not true (tree_genuine_partial). The restrictions are needed: no response for true facts that come from different head atoms of a rule (no_response); if rules were removed before the execution, the wrong rule and the tables of its negated atoms are shown (wrong_rule), or the query fails (query_fails). Missing: rules with aggregates and existential variables, import clauses; node queries."
  },
  {
   "property": "C66",
   "status": "partial",
   "theorems": [
    "Verif.Trace.NodeQ.node_query_partial",
    "Verif.Trace.NodeQ.satAt_form",
    "Verif.Trace.NodeQ.validNode_spec",
    "Verif.Trace.NodeQ.node_assignments",
    "Verif.Trace.NodeQ.assignments_spec",
    "Verif.Trace.NodeQ.leaf_spec",
    "Verif.Trace.NodeQ.filterNode_spec",
    "Verif.Trace.NodeQ.childResult_spec",
    "Verif.NodeQueryExample.reachability_query",
    "Verif.NodeQueryExample.twoSteps_good",
    "Verif.NodeQueryExample.keepFirst_ok",
    "Verif.NodeQueryExample.length2_shown",
    "Verif.NodeQueryExample.restriction_ignored",
    "Verif.NodeQueryExample.leaf_unrestricted",
    "Verif.NodeQueryExample.disjoint_unjoined",
    "Verif.NodeQueryExample.other_head",
    "Verif.NodeQueryExample.first_rule_only",
    "Verif.GenSingle.single_spec",
    "Verif.Trace.NodeQ.operatorRows_spec",
    "Verif.Trace.NodeQ.operator_ok",
    "Verif.NodeQueryExample.reachability_operator"
   ],
   "note": "Proved for every reached state, every choice among the matches of a rule (operator_ok shows that GeneratorSingle, run on tries, makes such a choice), and all queries of any depth, for programs without aggregates, imports and existential variables (node_query_partial): the answer at the root are exactly the facts with a derivation of the given form along the steps of the execution, every returned fact occurs at its address in such a derivation (Occurs) and is the head of an instance whose body facts are returned at the children (Explained); such derivations are derivations from the facts of the result (satAt_form). Restrictions (Good), each needed as shown by a counterexample: heads of the rules have distinct variables, at least one (disjoint_unjoined), and different predicates (other_head), each variable of a positive atom occurs twice in the rule (leaf_unrestricted), nodes above arbitrary facts are not restricted (restriction_ignored). Not modelled: ids, pagination, negated atoms, lists of possible rules, tables of further nodes."
  },
  {
   "property": "C67",
   "status": "partial",
   "theorems": [
    "Verif.Exporting.exports_written_partial",
    "Verif.Exporting.exports_written_tables",
    "Verif.Exporting.succeeds_iff",
    "Verif.Exporting.export_none_example",
    "Verif.Exporting.existing_kept",
    "Verif.Exporting.only_targets",
    "Verif.Exporting.fails_early",
    "Verif.Exporting.export_readable",
    "Verif.Exporting.default_export_readable",
    "Verif.Exporting.default_compressed",
    "Verif.Exporting.empty_not_compressed",
    "Verif.Exporting.collision_fails",
    "Verif.Exporting.collision_loses",
    "Verif.Exporting.collision_gzip",
    "Verif.Exporting.export_example",
    "Verif.Exporting.defaultResource_iff",
    "Verif.Exporting.defaultResource_plain",
    "Verif.Exporting.urn_panics",
    "Verif.Exporting.scheme_example"
   ],
   "note": "Proved for all lists of exports, settings and states of the file system, with the encoders, the compressor and the file name library as parameters: existing files are kept without --overwrite-results however the run ends (existing_kept), only files of exports are written (only_targets), a run whose files exist fails before reasoning and leaves everything as it was (fails_early), and if the exports have different files, and those of predicates without facts are not compressed themselves, the run succeeds and each file has the compressed encoding of its rows, the rest being unchanged (exports_written_partial); without --overwrite-results, runs succeed exactly if no file exists, no two exports have the same file and all writers succeed (succeeds_iff); the files can be read by imports without compression parameter (export_readable). Counterexamples to the full property: two exports can have the same file (collision_gzip), in which case the run fails after reasoning or loses the first one; files of compressed exports of predicates without facts are empty (empty_not_compressed); default exports of predicates whose IRI is neither a web address nor a local file panic (defaultResource_iff, urn_panics); exports with a compression but no resource have a name without .gz (default_compressed). Not modelled: creation of directories, other input/output errors, concurrent changes of files."
  }
 ]
}