# A machine-checked model of knowsys/nemo in Lean 4

## Layout

`lean/Verif/` contains the model and the proofs, one module per piece of code. Every definition that models code cites the file
and the lines in `/repo`; simplifications are named there. Definitions without a citation belong to specifications or proofs, and
their comments say so. Layers, from the bottom:

| layer | model modules | specification |
| --- | --- | --- |
| columns | `ColumnVector`, `BinarySearch`, `ColumnRle`, `RleTypes`, `ColumnBuild`, `IntervalColumn` | lists of values |
| column operators | `ColumnJoin`, `ColumnUnion`, `ColumnSubtract`, `ColumnFilter`, `UnaryColumn`, `ColumnParam` | abstract cursor over a sorted list (`Cursor`) |
| tables | `TypedLookup`, `TupleBuffer`, `Trie`, `TrieBuild`, `TrieScanBuild`, `RowScan`, `TrieLookup`, `Prune`, `ProjectReorder` | sorted lists of rows, trees (`TreeRows`) |
| table operators | `TrieOpCommon`, `TrieJoin`, `TrieUnion`, `TrieSubtract`, `TrieFilter`, `TrieFunction`, `TrieFunctionGen`, `AggregateScan`, `TriePlan` | relational algebra on sets of rows |
| values | `DataValue`, `StackProgram`, `IntArith`, `Builtins`, `StringFns`, `TypeProp`, `Aggregates`, `PlanBuiltins` | recursive evaluation, integers, lists of characters |
| storage | `BytesBuffer`, `BytesDict`, `RankedPair`, `MetaDict`, `BitSets`, `Permutation`, `OrderManager` | finite maps, sets, functions |
| rules | `RuleModel`, `Planning`, `RestrictedHead`, `VariableOrder` | valuations, `BodyHolds`, `DerivesWith` |
| engine | `Subtables`, `Strategies`, `Stratify`, `Engine`, `EngineRun` | least, stable and universal models |
| tracing | `Tracing` | `Genuine` trees, `GenuineInf` |
| programs | `Source`, `Validate`, `Pipeline`, `FilterImports`, `PushRules`, `ImportPattern`, `ImportFilter` | meaning of rules as they are written (`SDerives`, `SSafe`) |
| program texts | `ParseAst`, `ParseCore`, `ParseExpr`, `ParseStatement` | grammar (`ParseGrammar`, `ParseProgramText`) |
| plans | `ExecPlan`, `ExecOrders` | relational algebra over the database |
| files | `Literals`, `DataText`, `CellFormat`, `TableFiles` | numbers denoted by texts, lists of records |

The other modules contain proofs; modules named `Prop*` the property theorems, modules named `*Examples` instances that meet the
hypotheses, and counterexamples. The engine model works on relations (lists of rows without repetition) instead of tries: that
tries represent relations and that the table operators compute the relational operations is proved separately (C07–C10, C16, C36).
The two levels are not connected by one refinement theorem; see "Not modelled".

Panics of the code are results of the model (`none` or a special value), and the property theorems state that they do not occur,
or under which conditions. Loops whose termination is not obvious are modelled with fuel or as partial functions; the theorems
state that they end.

## Trusted base

* The kernel of Lean 4.33.0. All theorems depend on at most the axioms `propext`, `Classical.choice` and `Quot.sound` of Lean
  itself (printed by the gate for every theorem); no other axioms, no `native_decide`, no compiled code.
* That the model says what the code does: it was written by hand, function by function, and nothing was extracted or executed.
  `seeded/LOG.jsonl` lists the wrong variants of the model that were tried and which theorems rejected them.
* Arithmetic overflow is modelled as a panic (debug semantics). In release builds it wraps around, which is worse where the model
  panics, and the same elsewhere.
* Contracts of libraries, which appear as hypotheses or parameters:
  * petgraph: `CondOK`/`IsTopoCond` (condensation returns the strongly connected components in topological order);
    `exists_condOK` shows that the contract can be met.
  * Hash maps: association lists with some iteration order; where the order matters it is a parameter (`Trace.Choice.perm`,
    order parameters of `VariableOrder`).
  * Floating point: `FloatLib`, `SumLib` (operations on doubles), `FloatText` (printing and parsing are inverse); no properties
    of rounding are used.
  * Unicode segmentation: a text is a list of clusters, whatever the segmentation.
  * nom: `tag`, `alt`, `opt`, `many0`, `many1`, `separated_list1`, `cut`, `take_while1`, `take_until` etc. as documented
    (`ParseCore`).
  * csv, oxrdf, oxrdfio: a file is a list of records or statements; quoting and syntax inside these crates is not modelled.
  * Dom: the domain of values of the relation-level engine, with partial functions and aggregates that depend only on the set of
    rows (`Dom.agg_set`; proved of the code's aggregates in C16). `NullDom`: nulls are different from each other and
    functions are undefined on them.
  * `StoresValues`, `henc`: equal values are stored equally (proved of the dictionary in C11).
* Concurrency: everything is modelled on one thread. The code uses locks only in the global buffer manager and dictionaries.

## Not modelled

The rule-model components other than those listed, the command line and the Python and web interfaces; the loading of tables from disk; aggregates
over several tables; SPARQL and JSON readers; tree queries of
tracing; import clauses in rule bodies; positions in the program text and error messages; memory limits and compression; threads.


## Properties: what is modelled, how it is proved, what is missing

### C01 Column storage is lossless — proved

Builders (vector, run length, adaptive) as state machines over a list of pushed values; invariant: the encoded column denotes the list. `ColumnVector`, `ColumnRle`, `RleProofs`, `ColumnBuild`.

Theorems (`PropColumns`): `C01_lossless_unsigned`, `C01_lossless_i64`, `C01_lossless_float`.

Scope: All column types, all builder parameters, all inputs shorter than 2^63.

### C02 Seek finds the least not-smaller element — partial

Cursors with `next`, `seek`, `current`, `narrow`; simulation of an abstract cursor over the list (`Cursor`). Binary search and RLE search are modelled instruction by instruction.

Theorems (`PropColumns`): `C02_seek_unsigned`, `C02_seek_float`, `C02_seek_i64_partial`, `C02_seek_i64_panics`.

Scope and gaps: Proved without restriction for unsigned and float columns; for i64 false as stated: C02_seek_i64_panics is a machine-checked counterexample (i64::MIN / -1), and the claim is proved for all sought values not exactly 2^63 above a column value.

### C03 Leapfrog column join is intersection — proved

The leapfrog loop as a partial function; simulation of the abstract cursor over the intersection, with termination measure.

Theorems (`PropColumnOps`): `C03_join`.

Scope: Any number of inputs, any call sequence; inputs only assumed to meet the cursor contract.

### C04 Column union is set union — proved

Union cursor with the list of smallest inputs; simulation of the abstract cursor over the union.

Theorems (`PropColumnOps`): `C04_union`.

Scope: Any call sequence; also the list of inputs standing on the current value.

### C05 Column subtraction is set difference — proved

Subtraction cursor with equality flags; simulation of the abstract cursor over the difference.

Theorems (`PropColumnOps`): `C05_subtract`.

Scope: Any call sequence; also the equality flags.

### C06 Column filters keep exactly the matching values — partial

Filter cursors; simulation of the abstract cursor over the filtered list; counterexamples for the states in which `current` is stale.

Theorems (`PropColumnOps`): `C06_filter_equal`, `C06_constant`, `C06_filter_partial`, `C06_filter_iterate`, `C06_interval_partial`, `C06_filter_stale_current`, `C06_filter_union_backwards`, `C06_interval_seek_ignored`, `C06_interval_min_bound`.

Scope and gaps: Equality filters and constants fully. Condition filter: all next/seek answers; `current` after exhaustion is false as stated (counterexample C06_filter_stale_current). Interval filter: with guards, counterexamples without them.

### C07 A table is exactly the set of rows written to it — proved

Tuple buffer, sorted writer, interval columns, trie builder, row scan; the composition is proved to return the sorted set of rows.

Theorems (`PropTries`): `table_is_set_of_rows`, `table_order_independent`.

Scope: All tables with at least one column, all rows over a linearly ordered value type with monotone storage types.

### C08 Row membership and row position are exact — partial

`contains_row` and `row_position` over the built trie.

Theorems (`PropTries`): `containsRow_iff`, `rowPosition_isSome_iff`, `rowPosition_index_partial`, `containsRow_zero_arity_wrong`.

Scope and gaps: Proved for all tables with at least one column; false for tables without columns (containsRow_zero_arity_wrong).

### C09 Table operators implement relational algebra — partial

Every trie operator with its generator (column markers, prepared functions and filters), as partial trie scan; proof that the scan enumerates the tree of the relational algebra result; closed under nesting (`TriePlan`).

Theorems (`TriePlan`, `PlanBuiltins`, `TrieSubtract`, `PropNull`, `ProjectReorder`): `Plan.eval_table`, `Plan.execute_rows_partial`, `Plan.execute_builtins`, `TJoin.generate_table`, `TUnion.generate_table`, `TSub.generate_table`, `TFilter.generate_table`, `TFn.generate_table`, `append_nulls_partial`, `repeated_null_panics`, `project_reorder_rows`, `project_to_nothing`, `copied_column_wrong`, `stored_storage`.

Scope and gaps: Proved for arbitrary trees of join, union, difference, filter and computed columns over stored tables, for appending nulls to such a tree, and for projection and reordering; and for keeping one row per values of the columns that are not single (single_spec, the operation behind node queries); aggregation is C16. Excluded by hypotheses because the code is wrong there: copied columns left of used ones (copied_column_wrong), filters below a union that is searched, constants beyond 64 signed bits, repeated nulls whose ids need 64 bits (repeated_null_panics).

### C10 Materializing a scan preserves it — partial

`from_partial_trie_scan`/`from_full_trie_scan` as loops over an arbitrary scan; result proved to represent the (cut) rows of the scan.

Theorems (`PropTries`): `materialize_rows_partial`, `materialize_table`, `materialize_zero_arity_wrong`.

Scope and gaps: Proved for every scan that behaves like a tree and every cut that keeps at least one column; keeping no column is wrong for an empty scan (materialize_zero_arity_wrong).

### C11 The dictionary is a bijection — partial

Hash-map-based string dictionaries, ranked pair dictionary, meta dictionary with blocks, as state machines; invariant over all histories.

Theorems (`PropDict`, `RankedPair`, `BytesDict`): `MDict.dictionary_bijection_partial`, `MDict.dictionary_stable`, `MDict.dictionary_add`, `MDict.add_works`, `BDict.dictionaries_refine`, `DSpec.bijection`, `DSpec.add_stable`, `PairDict.Rep.add_eq`, `MDict.empty_tuples_conflated`, `MDict.maps_conflated`, `MDict.unsigned_long_changed`, `MDict.long_tag_changed`, `MDict.long_label_skips`.

Scope and gaps: Proved for every history of add_datavalue/fresh_null calls with storable values (Storable: no maps, no labelled tuples without elements, labels only while IRI ids are below 2^32, language tags of at most 127 bytes); outside of that the property is false of the code, as the counterexample theorems show; integers beyond i64 come back as literals.

### C12 Fresh nulls are fresh — proved

Null counter of the meta dictionary; nulls created by the restricted chase in the engine model.

Theorems (`PropDict`, `ChaseRestricted`, `PropNull`): `MDict.fresh_null`, `MDict.fresh_nulls_distinct`, `iterate_nulls`, `append_dictionary_nulls_partial`.

Scope: For every history of the dictionary, for every rule application of every reached state of the engine, and for the operator that appends the nulls to a stored table (where a repeated variable needs ids of 32 bits, see C09).

### C13 String storage never mixes bytes — proved

Global buffer manager with pages; invariant over all histories of pushes of several buffers.

Theorems (`BytesBuffer`): `BBuf.buffer_reads_back`, `BBuf.buffer_init_fresh`, `BBuf.buffer_push_works`, `BBuf.buffer_disjoint`, `BBuf.empty_at_page_end`.

Scope: For every history of buffers and pushes on one thread (concurrent access is not modelled); reading an empty array pushed at the end of an exactly full page panics (empty_at_page_end), which the reads-back theorem excludes.

### C14 Compiled expressions mean what they say — proved

Function trees, stack program compilation and evaluation; simulation by induction on trees.

Theorems (`StackProgram`, `PropSparql`): `eval_fromTree`, `eval_within_size`, `runOps_no_underflow`, `eval_rename`, `specialFun_spec`.

Scope: Every function tree whose n-ary nodes have parameters (fromTree_empty_nary: without parameters the program panics), every table of function semantics, every assignment.

### C15 Integer arithmetic is exact or undefined — partial

i64 built-ins as functions on `Int` in range with explicit checked operations; compared with exact arithmetic.

Theorems (`IntArith`): `I64.add_exact`, `I64.sub_exact`, `I64.mul_exact`, `I64.div_exact`, `I64.neg_exact`, `I64.abs_exact_partial`, `I64.rem_exact_partial`, `I64.sqrt_exact`, `I64.log_exact`, `I64.pow_exact`, `I64.compare_exact`, `I64.sum_sound`, `I64.sum_defined_partial`, `I64.sum_exact_nonneg`, `I64.prod_sound`, `I64.prod_exact_nonzero_partial`, `I64.minimum_exact`, `I64.maximum_exact`, `I64.bitOr_bit`, `I64.bitXor_bit`, `I64.bitAnd_bit_partial`, `I64.shl_exact_partial`, `I64.shr_exact_partial`, `I64.shru_exact_partial`, `I64.abs_min_panics`, `I64.rem_min_panics`, `I64.bitAnd_sign`, `I64.shift_panics`, `I64.sum_order`, `I64.prod_order`.

Scope and gaps: Exact or undefined for all 64-bit operands except where the code deviates: the last six theorems are the counterexamples (ABS and remainder at the minimum, sign bit of BITAND, shifts by 64 or more, order of SUM/PRODUCT).

### C16 Aggregates are order independent — partial

Aggregate processors as folds, aggregate trie scan over pruned scan; independence of order by canonical results.

Theorems (`Aggregates`): `aggregateScan_spec`, `aggregate_table`, `aggregate_order_independent`, `count_table`, `max_table`, `min_table`, `sum_table_partial`, `aggInstructions_spec`, `sum_drops_f32`, `sum_without_numbers`, `sum_order_dependent`, `max_by_type`.

Scope and gaps: The complete pipeline pruned scan, aggregate scan, stored table, for all tables. count/min/max complete; sum only for integer columns within range: it is false in general (sum_drops_f32, sum_without_numbers).

### C17 Semi-naive rule application loses and invents nothing — proved

Planner model (semi-naive variants of joins, functions, filters, negation) over step-indexed tables; compared with valuations.

Theorems (`EngineSafety`, `BodyEval`): `reached_seminaive`, `genSeminaive_spec`.

Scope: Every state reached by the engine, all rules without existential variables that meet RuleOK/HeadOK (functions, filters, negation, aggregates included).

### C18 Rule scheduling stops only at a fixpoint — proved

Strategies as state machines; trace predicate for any run.

Theorems (`Strategies`, `EngineExamples`): `stratified_trace`, `graph_trace`, `rr_trace`, `stops_at_fixpoint`, `roundRobin_stable`.

Scope: All runs of the default strategy, of the dependency-graph strategy and of round robin, whatever the rules report; the graph library's topological order of components is a contract (CondOK).

### C19 Reasoning is sound — proved

Engine model; induction over execution steps; stable/least models as closure properties.

Theorems (`PropEngine`, `EngineSafety`): `execute_sound`, `reached_sound`.

Scope: Every reached state, also of nonterminating runs; rules without existential variables (these are C25).

### C20 Reasoning is complete — proved

As C19; a state in which the strategy stops is closed under all rules.

Theorems (`PropEngine`): `execute_complete`, `execute_leastModel`.

Scope: Rules without existential variables (these are C25).

### C21 Stratified negation computes the perfect model — partial

Stratification groups and phases; the result is the unique stable model of the stratified program.

Theorems (`PropEngine`, `EngineExamples`): `execute_perfect_model_partial`, `execute_stable`, `stable_unique`, `Example.reachability`, `negated_atom_ignored`.

Scope and gaps: Proved for rules meeting ProgOK; false for negated atoms that share no variable with the rest of the body: negated_atom_ignored is a counterexample.

### C22 Non-stratifiable programs are rejected, and only those — proved

Dependency graph construction and check; equivalence with the existence of a level mapping.

Theorems (`PropEngine`): `execute_rejects_iff`.

Scope: All rule lists; stratifiability is defined by levels of predicates, independent of the graph construction.

### C23 Datalog execution terminates — proved

Finite bound on derivable facts from the active domain; each pass adds facts.

Theorems (`PropEngine`): `execute_terminates`.

Scope: Programs whose conditions assign only variables and constants; aggregates included.

### C24 Results do not depend on evaluation order — proved

Uniqueness of stable models of stratifiable programs.

Theorems (`PropEngine`, `EngineExamples`): `execute_order_independent`, `strategy_independent`.

Scope: Order of rules, atoms, conditions, facts, variable orders, component order, output predicates.

### C25 Restricted chase: existential rules are satisfied and nulls are only created on demand — partial

Restricted head plan (satisfied-head table, null generation) as in the code; model and universality by homomorphisms into any model.

Theorems (`ChaseRun`, `ChaseUniversal`, `ChaseRestricted`, `TraceHistory`, `ChaseExamples`): `execute_model`, `execute_isModel`, `execute_universal`, `exec_universal`, `execute_certain`, `regular_restricted_partial`, `exclusive_restricted_partial`, `UpToDate.iterate`, `ChaseExample.chain_certain`, `ChaseExample.empty_match_redundant`, `ChaseExample.import_redundant`, `ChaseExample.several_atoms_redundant`.

Scope and gaps: Proved in full: when the engine stops all rules (also with negation and aggregates in other rules) are satisfied, and for positive programs every intermediate and final state maps into every model, so null-free answers are exactly the certain answers. That nulls are only created for unsatisfied heads is false in general (three counterexample runs, *_redundant) and proved for heads that only the rule itself derives and for runs whose applications find matches.

### C26 Table defragmentation is invisible — proved

`cover_range` and the combination of tables over intervals.

Theorems (`EngineSafety`, `Subtables`, `Engine`): `reached_range`, `Handler.coverRange_spec`, `Eng.defrag_spec`.

Scope: Every reached state, every range of steps.

### C27 Row ids identify rows — partial

Row positions in stored tables.

Theorems (`PropTries`): `rowPosition_index_partial`, `rowPosition_collision`.

Scope and gaps: Row positions identify rows if the last column has one storage type; rowPosition_collision is a counterexample otherwise.

### C28 No fact is stored twice — proved

Invariant `OK.unique` of the engine.

Theorems (`EngineSafety`, `ChaseRestricted`): `reached_no_duplicates`, `reached_updated`, `reached_x_no_duplicates`.

Scope: Every reached state, also with existential rules; the report of updated predicates is proved for rules without existential variables.

### C29 Permutations form a group action — proved

Permutations as association lists in the code's normal form.

Theorems (`Permutation`): `Permut.permute_moves`, `Permut.permute_invert`, `Permut.permute_chain`, `Permut.beq_iff`, `Permut.isIdentity_iff`, `Permut.permute_fromVector`, `Permut.permute_fromUnsorted`, `Permut.permute_fromTransformation`.

Scope: All permutations built by the public functions, all rows.

### C30 Explanations are genuine derivations — partial

`trace_recursive` over the states of the engine, with the history of applied rules; invariant on the store of traced facts; trees and lists of inferences.

Theorems (`PropTrace`, `TraceQuery`, `TraceHistory`, `TraceExamples`): `Trace.trace_genuine_partial`, `Trace.list_genuine_partial`, `Trace.Genuine.sound`, `Trace.setOrders_first`, `Trace.traceRel_spec`, `Trace.assignment_spec`, `Reached.hist`, `Reached.negated`, `TraceExample.reachability_explained`, `TraceExample.empty_body_untraced`, `TraceExample.nullary_untraced`, `TraceExample.assignment_swapped`, `TraceExample.wrong_conclusion`, `TraceExample.aggregate_unchecked`.

Scope and gaps: Proved for every reached state, every list of ground facts, and every choice of the hash order and of the first query row, for programs without aggregates and existential variables whose rules have a positive atom and a variable with a value: tracing ends, stored facts get a genuine tree, others none; lists of inferences are genuine, closed and without repetition if all facts are stored. The restrictions are needed: proved counterexamples for rules without positive atoms, rules without variables, aggregates, several computed variables (wrong values are shown), and lists with facts that are not stored (wrong final conclusion). Missing: existential rules, import clauses, node and tree queries.

### C31 Unused-rule elimination preserves outputs — proved

Pipeline transformations on statements; answers compared by stable models restricted to required predicates.

Theorems (`Pipeline`): `active_answers`, `active_certain`, `active_stable`, `active_models`, `active_stratifiable`, `mem_active`, `required_iff`, `select_answers`.

Scope: The transformation is part of the default pipeline; Example.statements_answers is an instance for all inputs.

### C32 Quoted output reads back — partial

Cell and literal formats, writers and readers over lists of records; inverse by case analysis on values.

Theorems (`PropFiles`, `PropRdf`, `PropCells`, `FileExamples`): `Lit.dsv_roundtrip_partial`, `Lit.rdf_roundtrip_partial`, `Lit.cell_roundtrip`, `Lit.string_format`, `Lit.double_format`, `Lit.int_format`, `Lit.string_cell`, `Lit.string_cell_changed`, `Lit.ulong_cell`, `Lit.float_cell`, `Lit.null_cell`, `Lit.iri_cell`, `Lit.tuple_cell`, `Lit.FileExample.keeps_example`, `Lit.FileExample.rdf_example`.

Scope and gaps: Round trip of whole tables proved for DSV (values in Survives) and RDF (all values except tuples, maps and single precision numbers, up to names of nulls). The other values are shown not to survive: strings with backslash, quote or line break in DSV cells, u64 from 2^63 on, floats, nulls, some IRIs, tuples. Texts are lists of records / statements (crates csv and oxrdfio are contracts), printing and parsing doubles is assumed inverse.

### C33 Import filters keep exactly the matching rows — partial

`PatternTupleBuffer` loop; specification by the first accepting pattern.

Theorems (`ImportFilter`, `ImportPattern`): `PBuf.import_spec_partial`, `importPattern_spec`, `import_rule_spec`, `FTPattern.withSkips_result`, `ImportExample.import_example`, `ImportExample.partial_transformation_leaks`.

Scope and gaps: Proved for patterns whose transformations either succeed or fail at the first column (Pattern.Atomic) whenever another pattern follows; partial_transformation_leaks shows that a transformation that fails later leaves changed values for the following patterns.

### C34 Bit sets are sets — proved

Bit sets as numbers below 2^w with bit operations.

Theorems (`BitSets`): `BSet.ext_elems`, `BSet.elems_empty`, `BSet.elems_single`, `BSet.elems_union`, `BSet.elems_inter`, `BSet.elems_set`, `BSet.get_set`, `BSet.elems_full`, `BSet.subset_iff`, `BSet.isSingle_iff`, `TypeSet.isUnique_iff`.

Scope: All word sizes, all positions below the word size; also StorageTypeBitSet.

### C35 Equal data values compare equal, order is total — partial

`DataValue` order, equality and hash as defined in the code, on all value domains.

Theorems (`DataValue`, `PropLiterals`): `DV.cmp_total`, `DV.cmp_swap`, `DV.le_total`, `DV.le_trans`, `DV.le_antisymm`, `DV.eq_iff_cmp`, `DV.eq_equivalence`, `DV.cmp_congr`, `DV.cmp_int`, `DV.cmp_domain`, `DV.eq_int`, `DV.hash_congr_partial`, `DV.hash_zero_wrong`, `Lit.same_number_partial`, `Lit.gap_not_same`.

Scope and gaps: Order and equality proved for all values; spellings of one number give equal values outside 2^63..2^64-1 (same_number_partial, counterexample gap_not_same); hash/equality agreement holds only without float zeros (hash_zero_wrong is the counterexample).

### C36 Available column orders are interchangeable — partial

Order reference manager with permutations.

Theorems (`OrderManager`): `request_in_any_order`, `request_reference_partial`, `request_reference_wrong`.

Scope and gaps: Proved for all tables and histories except references requested in an order that does not commute with their permutation, for which request_reference_wrong shows that the claim is false.

### C37 Tuples are grouped by their storage types — proved

Typed table lookup as trie of indices.

Theorems (`TypedLookup`): `TLookup.lookup_by_types`.

Scope: For every sequence of type sequences of a fixed non-zero arity.

### C38 Rolling back temporary tables restores the database — proved

`delete_from` after arbitrary histories of the database.

Theorems (`OrderManager`): `rollback_restores`, `request_in_any_order`.

Scope: For every history; tables that are references are covered by C36's restrictions.

### C39 Predicted storage types are sound — partial

Type propagation through function trees.

Theorems (`TypeProp`): `Fn.type_prediction_sound`, `Fn.type_prediction_tree`, `Fn.constant_prediction_partial`, `Fn.constant_prediction_wrong`.

Scope and gaps: Proved for every expression that applies a function, all built-in functions; for bare constants false beyond 64 signed bits (constant_prediction_wrong).

### C40 String and casting built-ins follow their definition — partial

Built-in functions over lists of clusters/characters.

Theorems (`StringFns`): `Fn.contains_iff`, `Fn.before_after`, `Fn.before_after_absent`, `Fn.before_after_text`, `Fn.starts_iff`, `Fn.ends_iff`, `Fn.substring_spec`, `Fn.substringLength_spec_partial`, `Fn.substringLength_wrong`, `Fn.length_spec`, `Fn.concat_plain`, `Fn.cast_decimal`, `Fn.cast_not_a_boundary`.

Scope and gaps: All texts, whatever the segmentation into clusters. Three-parameter SUBSTR only if start+length is positive and fits 64 bits (substringLength_wrong shows what happens otherwise); INT aborts on some texts (cast_not_a_boundary).

### C41 Answers to existential programs are certain answers — proved

As C25.

Theorems (`ChaseUniversal`, `DataDomainProofs`): `execute_certain`, `execute_universal`, `exec_universal`, `Data.dataNull`.

Scope: Conditions may be equations and functions that are undefined for nulls (HomSafe); chain_certain is an instance.

### C42 Export settings select the announced predicates — partial

Export transformations on the list of statements.

Theorems (`Pipeline`): `exportsT_spec_partial`, `exportsT_all`, `exportsT_edb`, `setDefaultOutputs_requested`, `export_all_drops`, `export_edb_drops`.

Scope and gaps: keep, none and the default outputs are as announced; idb also exports predicates that only have facts; all and edb do not export what they announce (export_all_drops, export_edb_drops), their exact effect is proved instead.

### C43 Programs mean what is written — partial

Normalization of rules (generated variables, operations, aggregates) and meaning of written rules.

Theorems (`NormalizeRule`, `NormalizeProg`, `NormalizeTerm`, `NormalizeExamples`): `derives_norm_partial`, `execute_source_stable_partial`, `execute_source_closed`, `execute_source_rejects`, `source_stable_unique`, `execute_source_terminates`, `SourceExample.prog_result`, `SourceExample.sum_derives`, `SourceExample.unsafe_condition_ignored`, `SourceExample.two_aggregates_lost`, `SourceExample.existential_term_lost`.

Scope and gaps: Proved for accepted rules that satisfy the unchecked conditions SExtra (and, for runs of the engine, the conditions negShared and negLocal of SRuleOK); the theorems unsafe_condition_ignored, two_aggregates_lost and existential_term_lost show that it fails for accepted rules without SExtra. Rules with existential variables and import clauses are not covered.

### C44 Every rule gets a variable order — proved

The greedy computation of orders with its counters and fallbacks.

Theorems (`VariableOrder`): `VarOrder.setOrders_spec`, `VarOrder.orderForRule_spec`, `VarOrder.generateOrders_spec`, `VarOrder.preferableOrders_spec`.

### C45 Accepted rules are safe — partial

`Rule::validate` as a Boolean function; soundness and consequences.

Theorems (`Validate`, `NormalizeExamples`): `validate_valid_partial`, `mem_safeVars`, `checkHead_spec`, `checkNegative_spec`, `SourceExample.unsafe_condition_ignored`, `SourceExample.two_aggregates_lost`, `SourceExample.existential_term_lost`.

Scope and gaps: The listed conditions are guaranteed for accepted rules, except that there can be aggregates in several head atoms; conditions with variables without a value and existential variables in head expressions are accepted, too. Checks of types and numbers of arguments are not modelled.

### C46 Evaluating rules while importing does not change the answers — partial

Rules pushed into imports: recognition, translation to patterns, skipped columns; equality of answers.

Theorems (`PropImports`, `FilterImports`, `PushRules`, `ImportsExamples`): `filterImports_stable_partial`, `internalize_stable`, `pushImport_read`, `PushRule.importRule`, `FilterExample.good_ok`, `FilterExample.condition_lost`, `FilterExample.derived_facts_lost`, `FilterExample.union_lost`, `FilterExample.repeated_variable_wrong`, `FilterExample.skipped_columns_wrong`, `FilterExample.two_obsolete_panic`.

Scope and gaps: Proved under the conditions FilterOK: one rule for each internalized predicate, which is not derived by other rules; columns are not skipped by the user; the variables of conditions occur in the head or in an assignment; rules that are considered obsolete are projections. The theorems condition_lost, derived_facts_lost, union_lost, repeated_variable_wrong, skipped_columns_wrong and two_obsolete_panic show that the property fails without these conditions.

### C47 Numeric literals mean the number that is written — partial

Literal normalization (`AnyDataValue::new_from_typed_literal` and the decimal/integer/float cases).

Theorems (`PropLiterals`, `PropFilesMore`, `DataText`, `FileExamples`): `Lit.decimal_accepts`, `Lit.integer_accepts`, `Lit.bounded_accepts`, `Lit.unsignedLong_accepts`, `Lit.decimal_value`, `Lit.decimal_no_panic`, `Lit.same_number_partial`, `Lit.different_number`, `Lit.typedLit_stable`, `Lit.gap_not_same`, `Lit.float_changed`, `Lit.FileExample.decimal_example`, `Lit.short_example`.

Scope and gaps: Acceptance, value and absence of panics proved for all texts and all decimal and bounded integer datatypes; spellings of one number give equal values except for numbers from 2^63 to 2^64-1 (Gap): gap_not_same shows that 18446744073709551615 and 18446744073709551615.0 differ.

### C48 Imports read exactly the well-formed rows — partial

DSV and RDF readers over lists of records/statements, limits, blank node map.

Theorems (`PropFiles`, `PropFilesMore`, `PropRdf`, `PropCells`, `ImportFilter`, `FileExamples`): `Lit.dsv_import`, `Lit.dsv_export`, `Lit.dsv_export_records`, `Lit.rdf_import_partial`, `Lit.rdf_export`, `Lit.rdf_export_triples`, `Lit.rdf_malformed_ignored`, `Lit.parse_bracketed`, `Lit.parse_panic`, `Lit.rdf_malformed_shifts`, `Lit.parse_panics`, `Lit.FileExample.import_example`, `Lit.FileExample.record_example`, `Lit.FileExample.wellFormed_example`, `Lit.firstMalformed_example`.

Scope and gaps: DSV import proved for all files whose cells do not panic (parse_panic says which do). RDF import proved for files without malformed literals in imported columns, and statements whose first imported column is malformed are ignored (rdf_malformed_ignored); rdf_malformed_shifts shows that a literal malformed elsewhere shifts all later rows. The crates csv and oxrdfio are contracts.

### C49 Executing a plan computes the tables it describes — partial

Plans as trees with ids; collection of trees with sharing, orders, dependents, use counts and cut layers; execution of the series; registration in the database. Invariant relating each collected tree to the node and order it stands for, then induction over the series.

Theorems (`PropExec`, `ExecExamples`): `XPlan.executePlan_rows_partial`, `XPlan.executeDb_rows_partial`, `XPlan.execute_core`, `XPlan.permanents_spec`, `XPlan.Example.executable`, `XPlan.Example.result_sem`.

Scope and gaps: Proved for all plans of fetch, join, union, subtract, filter, function, projection, renaming and zero nodes that meet Executable (conditions that all plans of the engine meet: expressions use available columns, functions and projections are requested in the order in which they are written, see finding 33/34), for all databases and histories. Missing: aggregate, null, single and import nodes; tables without columns in the version with a database.

### C50 A program text is read as what is written — proved

The parser functions over lists of characters, with nom's combinators (soft errors, hard failures, backtracking); an independent context free grammar with white space and comments; induction over derivations shows that each text is read as its tree, with whatever may follow. Composition lemmas (type classes) for: what is left over, no hard failures, independence of the recursion bound.

Theorems (`PropParse`, `ParseRecover`, `ParseFuel`, `ParseExamples`): `Parse.parse_written`, `Parse.programText_unique`, `Parse.expression_written`, `Parse.expression_unique`, `Parse.statement_unique`, `Parse.parse_never_panics`, `Parse.parse_ok_iff`, `Parse.program_total`, `Parse.program_bound`, `Parse.parse_after`, `Parse.parse_error_skips`, `Parse.parse_one_error`, `Parse.Example.example_program`, `Parse.Example.example_parse`, `Parse.Example.example_error`.

Scope: The grammar is ParseGrammar and ParseProgramText; texts outside of it that the parser nevertheless accepts (comment directly after a closing parenthesis, unknown directives, unknown aggregates) are covered by the totality theorems only. Positions and error messages are not modelled; parse_error_skips is stated for line feeds (not CRLF).

### C51 The answers of a program text are what the text means — partial

The translation of syntax trees to program components function by function; a meaning of syntax trees that does not use it (`TextMeaning`); each translated rule corresponds to the written one part by part (`RuleFor`), so that it derives the same facts; then C43/C19 for the execution, C50 for the text.

Theorems (`PropText`, `TextDerive`, `TextExamples`, `PropEngine`, `DataExamples`): `Tr.text_answers_partial`, `Tr.text_rejected_partial`, `Tr.text_unique_partial`, `Tr.text_terminates_partial`, `Tr.body_holds`, `Tr.derives_iff`, `Tr.Example.parse_text`, `Tr.Example.read_text`, `Tr.Example.declared`, `Tr.Example.covered`, `Tr.Example.stratified`, `Tr.Example.noNewValues`, `Tr.Example.run`, `Tr.AggExample.parse_text`, `Tr.AggExample.covered`, `Tr.AggExample.stratified`, `Tr.AggExample.run`, `Tr.LocalExample.parse_text`, `Tr.LocalExample.covered`, `Tr.LocalExample.derives`, `Data.text_answers_data_partial`, `Data.Example.run`.

Scope and gaps: The specification is TextMeaning. Rules with existential variables are C54. Missing: parameters; tuples, maps and function terms (not supported by the evaluation); aggregates inside larger expressions. Conditions that relate a local variable of a negated atom to a variable outside of it, negated atoms without bound arguments and aggregates in several head atoms are excluded because they are evaluated wrongly (see the findings for C43). The validation between translation and execution is C45; Covered contains what it guarantees.

### C52 Numerals and names of accepted programs mean what is written — proved

Numerals: digits are read as the number they write (induction), `i64::from_str` from C47. Names: the loop over the directives yields exactly the declared abbreviations.

Theorems (`PropTranslate`, `PropIncremental`, `TextExamples`): `Tr.number_whole`, `Tr.number_every`, `Tr.number_real`, `Tr.encoded_value`, `Tr.encoded_every`, `Tr.encoded_bases`, `Tr.accepted_declared`, `Tr.Declared.unique`, `Tr.accepted_names`, `Tr.Example.marker_ignored`, `Tr.Example.large_integer`, `Tr.Example.large_encoded`.

Scope: Reading the text of a floating point number is the parameter Lib.parseF32/parseF64. Numerals too large for a floating point number panic (finding).

### C53 Rules with existential variables mean what is written — proved

The chase of C25 composed with the normalization of C43: the auxiliary rule for the head, its variable order and the parameters of the strategies are computed as in the code; models of the normalized rules are the models of the rules as written (`model_norm`), so the theorems about runs carry over.

Theorems (`ChaseSource`, `EngineExamples`, `ChaseSourceExamples`): `execute_source_model`, `execute_source_universal`, `execute_source_certain`, `model_norm`, `ruleCfgs_spec`, `ChaseSourceExample.prog_ok`, `ChaseSourceExample.prog_certain`, `ChaseSourceExample.helper_facts_lost`.

Scope: The program must not use the helper predicates _SATISFIED_i (helper_facts_lost shows what happens otherwise), and its rules must be valid in the sense of SValid and SBodyOK (see C43, C45). The arities of helper predicates and the orders are computed, not assumed.

### C54 The answers of a program text with existential variables are a universal model — partial

The theorems of C53 composed with the reading and translation of texts (C50, C51): `ProgramFor.model` shows that the models of the translated rules are the models of the text (`Model` in TextMeaning), and the conditions of the chase theorems (constants are not nulls, heads of existential rules, helper names) follow from conditions on the text.

Theorems (`TextChase`, `TextExamples`, `TextChaseExamples`, `ChaseSourceExamples`): `Tr.text_model_partial`, `Tr.text_universal_partial`, `Tr.text_certain_partial`, `Tr.ProgramFor.model`, `Tr.ChaseExample.parse_text`, `Tr.ChaseExample.covered`, `Tr.ChaseExample.plainExistential`, `Tr.ChaseExample.noHelpers`, `Tr.ChaseExample.positive`, `Tr.ChaseExample.prog_run`, `Tr.ChaseExample.certain`.

Scope and gaps: The specification is Model in TextMeaning. Partial in the same sense as C51 (Covered). The text must not name the helper predicates _SATISFIED_i (finding 51).

### C55 Functions and aggregates in rules compute the documented functions of data values — partial

A domain of data values (`dataDom`) with the functions and aggregates of Nemo as the engine sees them: values are read from storage, the function is applied, the result is stored. `eval_tree` proves by induction over operations that nested operations have the value of the function tree that the planner builds (C14 proves that the stack program computes this); `dataNull` that the domain fulfils the assumptions of the chase theorems. A panic of a function is modelled as an undefined value; the order of stored values is that of the dictionary at the end of the run.

Theorems (`DataTrees`, `PropData`, `PropFunctions`, `DataDomainProofs`, `DataDomain`, `DataExamples`, `TextExamples`): `Data.eval_tree`, `Data.app_sto`, `Data.integer_functions`, `Data.integer_comparisons`, `Data.integer_lists`, `Data.integer_shifts`, `Data.boolean_functions`, `Data.text_functions`, `Data.concat_function`, `Data.substring_function_partial`, `Data.kind_functions`, `Data.conversion_functions`, `Data.double_functions`, `Data.integer_arithmetic`, `Data.count_rows`, `Data.extremal_rows`, `Data.sum_rows_partial`, `Data.dataNull`, `Data.opFn_total`, `Data.single_argument`, `Data.text_answers_data_partial`, `Data.Example.run`, `Data.Example.someLib_ok`.

Scope and gaps: Every name of a function is given its meaning without the tables of functions, and eval_tree relates nested operations of rules to the function trees (C14). Partial: sums only of integers whose positive and negative parts fit 64 bits (false in general, C16); the exceptions of C15 and C40 (ABS, remainder and shifts at the limits, SUBSTR with odd lengths); the sign of float zeros is lost when they are stored (NoZero, Clean).

### C56 Demand driven imports deliver exactly the demanded rows — partial

Model of `ProductBindings` and of the paging of the SPARQL reader; the server is an arbitrary function from queries to responses whose answers are correct for an external table (`Serves`). `Demanded` says directly which rows are wanted. Proof: the combinations of old and new bindings match exactly the demanded rows; chunks, Cartesian products of chunks and divided pages preserve the set of matched rows.

Theorems (`PropPaging`, `PagingExamples`): `Dem.import_sound`, `Dem.import_complete_partial`, `Dem.import_exact_partial`, `Dem.import_ends_partial`, `Dem.two_large_factors_panic`, `Dem.failure_ignored`, `Dem.long_query_never_ends`, `Dem.too_large_never_ends`, `Dem.tableServer_serves`.

Scope and gaps: The model covers the combinations of old and new bindings, the distribution over pages, pages that are divided because a query is too long or because the server refuses it (HTTP 413), and empty groups. import_sound: every delivered row is a row of the endpoint. import_complete_partial: if the import ends and no query fails otherwise then no demanded row is missing; import_exact_partial: exactly the demanded rows if no query is refused. The full property is false of the code: two groups of at least 32000 bindings panic, failed queries are ignored so that rows are silently missing, a single binding whose query is too long and refused queries with fewer than 32000 bindings are tried again for ever.

### C57 Rules over incrementally imported data have the same matches as if the data was loaded completely — partial

Function by function model of the evaluation of bodies with import clauses over the tables of `Planning.lean`. The contract of the reader (`Fetches`) is what C56 proves. Histories (`ImportRun`) start without imported rows; other rules change other predicates in any way. Invariant: imported rows are rows of the external table, and for each stored binding all agreeing rows were imported. The matches are compared with `BodyHolds` of the plain rule over loaded tables, and with the engine's own evaluation of the plain rule.

Theorems (`PropImportRule`, `OrderManager`, `ImportRuleExamples`, `ImportsExamples`): `Dem.import_rule_partial`, `Dem.import_rule_loaded_partial`, `Dem.import_body`, `Dem.ImportRun.inv`, `Dem.Example.serve_fetches`, `Dem.Example.reader_fetches`, `Dem.Example.rule_ok`, `Dem.Example.second_state`, `Dem.Example.negation_before_import`, `Dem.Example.condition_lost`, `Dem.Example.constant_lost`, `Dem.Example.computed_not_bound`, `Dem.Example.negation_over_factors`, `Dem.Example.negation_before_function`.

Scope and gaps: The model covers the factors of the join, constant operations, binding patterns, requests for new bindings, both ways of merging, negated import clauses and the tables that are stored. import_rule_partial: for every history (ImportRun) and every step the matches are those over the completely loaded tables that use a new fact; import_rule_loaded_partial: they are the matches that the engine computes for the rule without import clauses over loaded tables. Both for rules whose positive atoms are connected, under the conditions ImportOK. The full property is false of the code: six counterexample rules (negated atoms with imported variables, conditions that are consumed by negated imports, constants, computed variables over several factors, negated atoms over several factors, computed variables in negated imports). Not proved: rules with several factors.

### C58 Preparing rules does not change their meaning — proved

Flatten.lean models TransformationNormalize on rules whose literals are in the order in which they are written; PropFlatten.lean shows that valuations of the flattened body restrict to valuations of the body and extend uniquely, PropFlattenMore.lean lifts this to validation, executions and program texts.

Theorems (`PropFlatten`, `PropFlattenMore`, `FlattenExamples`): `flat_derives`, `flat_stable`, `flat_model`, `flat_stratifiable`, `flat_validate`, `flat_valid`, `execute_flat_stable_partial`, `Tr.text_flat_answers_partial`, `Tr.text_flat_rejected_partial`, `Tr.text_flat_model_partial`, `Tr.text_flat_certain_partial`, `FlattenExample.lprog_flat`, `FlattenExample.lprog_plain`, `FlattenExample.lprog_ok`, `FlattenExample.lprog_stable`, `FlattenExample.open_rejected`, `FlattenExample.closed_accepted`.

Scope: The transformation itself is proved without restrictions (flat_*: the hypotheses are that no name starts with an underscore, which the parser guarantees, and that expressions in positive atoms use safe variables, which the validation checks). The theorems about executions and texts inherit the restrictions of C43, C51 and C54 and are called partial for that reason.

### C59 Loading SPARQL imports on demand does not change the answers — partial

Incremental.lean models TransformationIncremental (choice of imports, check for unrestricted atoms, new rules, new program); PropIncremental.lean shows that a new rule derives the same as the old one if its clauses see the contents of the imports, PropIncrementalMore.lean lifts this to stable models of programs by a correspondence of closed sets of facts, and shows that the check finds all unrestricted atoms.

Theorems (`PropIncrementalMore`, `PropSparqlProgram`, `PropIncremental`, `IncrementalExamples`, `SparqlProgramExamples`): `Inc.incremental_stable_partial`, `Sq.sparql_imports_partial`, `Inc.inc_derives`, `Inc.incremental_onlyImported`, `Inc.incremental_restricted_partial`, `Inc.importVar_inj`, `Inc.privTag_inj`, `IncExample.prog1_new`, `IncExample.prog1_ok`, `IncExample.prog1_restricted`, `SqExample.progP_ok`, `SqExample.progP_queriesOK`, `SqExample.progP_result`, `IncExample.two_endpoints_lost`, `IncExample.same_variable_lost`, `IncExample.anonymous_joined`, `IncExample.anonymous_unrestricted`.

Scope and gaps: All of TransformationIncremental is modelled: the choice of imports with both passes, the check for unrestricted atoms, the new rules and the new program. Proved for all programs that satisfy ProgramOK: every stable model of the program gives one of the transformed program with the same visible predicates, and vice versa. ProgramOK excludes what the code gets wrong, with counterexamples: imports from two endpoints in one rule are dropped (two_endpoints_lost), different constants in the same position of negated imports make a rule inapplicable (same_variable_lost), anonymous variables of import clauses are joined with each other (anonymous_joined). The statement on restricted queries is false in the presence of anonymous variables (anonymous_unrestricted).

### C60 Merging the SPARQL imports of a rule does not change its results — partial

Sparql.lean models SPARQL patterns with their meaning (solutions as partial maps, join, OPTIONAL, UNION, MINUS, VALUES, FILTER, EXISTS, BIND, projection) and the functions of queries.rs (renaming, standardize_variables, bind_constants, merge, push, negate); MergeSparql.lean models TransformationMergeSparql. A renaming that is injective on the variables of a pattern renames its solutions (induction over patterns); the standardized names are injective and disjoint except for the join variables; hence the rows of the merged query are the join. The fold over the clauses of a rule and the equivalence of rules and programs follow.

Theorems (`PropSparqlProgram`, `PropMergeProgram`, `PropMergeRule`, `PropMergeImport`, `PropMergeSparql`, `PropSparqlMerge`, `PropSparql`, `SparqlExamples`, `SparqlImportExamples`, `SparqlProgramExamples`): `Sq.sparql_imports_partial`, `Sq.merge_imports_partial`, `Sq.merge_stable_partial`, `Sq.mergeRule_cases`, `Sq.atomRule_derives`, `Sq.merged_derives`, `Sq.mergeAndPush_ok`, `Sq.merge_clause`, `Sq.push_clause`, `Sq.merge_rows`, `Sq.push_rows`, `Sq.eval_rename`, `Sq.eval_dom`, `SqExample.progJ_merge`, `SqExample.progJ_ok`, `SqExample.progJ_stable`, `SqExample.progK_merge`, `SqExample.progK_ok`, `SqExample.progK_result`, `SqExample.progP_merge`, `SqExample.progP_queriesOK`, `SqExample.progP_result`, `SqExample.negation_merged_wrong`, `SqExample.negative_only_lost`, `SqExample.negative_only_wrong`, `SqExample.failed_merge_lost`, `SqExample.shared_constant_panics`, `SqExample.head_variable_lost`, `SqExample.distinct_column_lost`, `SqExample.negations_merged`.

Scope and gaps: The rows of a merged query are the join of the rows of both queries, with the constants, for all patterns (merge_rows, push_rows); the program with merged imports has the same stable models on all predicates except the private ones of imports, whether the import remains a clause of the rule or becomes an import of the program (merge_imports_partial). The composition of both transformations is sparql_imports_partial: a program whose SPARQL imports are turned into clauses and merged has the answers of the program that loads them completely. Partial: only for rules whose import clauses are all positive; queries must be projections with a value in each column and without variables that are only in expressions and look like new names or end in Label; negated imports, failed merges and constants for variables that occur elsewhere are handled wrongly by the code, see the counterexamples.

### C61 Versions of a program are independent, and commits do exactly what was requested — partial

Revision.lean models the pipeline with its arena of statements, component ids, revisions, commits and handles, Program, and the resolution of origins. PropRevision.lean has a specification without ids and references (a handle is a list of statements, a commit is a growing list) and proves that the model refines it for all histories of operations on any number of open commits; immutability of versions, reading without panics and the resolution of origins follow. Not modelled: Rc and ImpVec (references stay valid while elements are pushed), u32 limits of ids, source positions.

Theorems (`PropRevision`, `RevisionExamples`): `Rev.run_refines`, `Rev.submit_handle`, `Rev.ruleById_statement`, `Rev.ruleById_rule`, `RevExample.ops_submit`, `Rev.handle_statements`, `Rev.handle_unchanged`, `Rev.resolve_root`, `Rev.find_component_partial`, `Rev.rightmost_at`, `Rev.materialize_rules`, `RevExample.ops_handles`, `RevExample.ops_model`, `RevExample.ops_root`, `RevExample.component_wrong`, `RevExample.component_lost`, `RevExample.cleared_panics`, `RevExample.cleared_other`.

Scope and gaps: The model of pipelines, commits and handles refines a specification without ids for all histories of operations on any number of open commits (run_refines): the programs of handles are what was kept and added (handle_statements), never change (handle_unchanged), and origins of rules are resolved to the rule that they were made from (resolve_root). Partial: the lookup of components by id is wrong in the code; proved is what it returns (find_component_partial: the last component of the last component and so on), with counterexamples component_wrong and component_lost; the rules of a materialized program are right (materialize_rules) but not after clear_exports or clear_imports (cleared_panics, cleared_other).

### C62 Global parameters have exactly one value, and are replaced by it everywhere — partial

Global.lean models validate_parameters, TransformationGlobal, Substitution::apply, is_ground and is_resolvable with terms of any depth over arbitrary partial operations. PropGlobal.lean defines solutions of declarations without any order or rounds, and proves with a general lemma on loops that run until nothing changes that both loops end and that the substitution is the only solution; the meaning of the transformed program is proved by induction on terms.

Theorems (`PropGlobal`, `GlobalExamples`): `Glob.substitution_solution`, `Glob.transform_meaning_partial`, `Glob.validate_ends`, `Glob.validate_spec`, `Glob.eval_apply`, `Glob.ground_apply`, `Glob.progG_accepted`, `Glob.progG_transform`, `Glob.progG_values`, `Glob.progG_meaning`, `Glob.cyclic_rejected`, `Glob.cyclic_external`, `Glob.missing_rejected`, `Glob.redefinition_rejected`, `Glob.nested_accepted`, `Glob.alias_rejected`, `Glob.undefined_accepted`, `Glob.undeclared_fact`.

Scope and gaps: Proved for all declarations that validate_parameters accepts and whose expressions have no variables other than parameters, and all values from outside: both loops end, every parameter gets a value, the values are the only solution of the declarations, and every term of the transformed program has the value that it has under this solution and contains no declared parameter. Partial, because the hypothesis on expressions is not ensured by the code (nested_accepted), undefined values of expressions are accepted (undefined_accepted) and undeclared parameters remain (undeclared_fact). Operations are an arbitrary partial function of the values of their arguments; distinct variables of aggregates are left out.

### C63 Accepted programs use every predicate with one arity, and never fail because of arities — partial

Arity.lean models used_predicates, validate_arity, TransformationActive and the arities of normalize_program with their loops and maps. PropArity.lean defines used and required predicates inductively and the places where arities are written as a list of events; validation and normalization are both characterized by two properties of this list (agreement, and no unknown arity before a known one), and the loops are shown to end with the inductively defined sets.

Theorems (`PropArity`, `ArityExamples`): `Ar.validate_iff`, `Ar.accepted_run`, `Ar.accepted_normalizes_partial`, `Ar.active_spec`, `Ar.used_spec`, `Ar.validate_fold`, `Ar.run_fold`, `Ar.progA_accepted`, `Ar.progA_active`, `Ar.progA_normalizes`, `Ar.progA_arities`, `Ar.inconsistent_rejected`, `Ar.unknown_rejected`, `Ar.unused_accepted`, `Ar.lostRule_panics`, `Ar.undefinedFact_panics`, `Ar.import_order`, `Ar.export_not_used`.

Scope and gaps: Proved for all programs: validation ends and accepts exactly the programs in which no predicate has two arities and unknown arities are resolved by previous statements (validate_iff); the active program consists of the statements that matter (active_spec); normalization of the active program of an accepted program fails exactly if an import or export without an arity has no previous statement with one, and otherwise gives every predicate the only arity with which it is written (accepted_run). Partial, because this may really happen (lostRule_panics, undefinedFact_panics); it cannot under the conditions of accepted_normalizes_partial. Transformations after TransformationActive (incremental imports, filters of imports) are not part of this model.

### C64 Importing JSON loses nothing — proved

Json.lean models the loop of JsonReader with its stack and its maximal id over a tree of JSON values (parsing is serde_json's and left out, numbers are integers or doubles of any type). PropJson.lean defines when a table represents a value with an id (by recursion on the document: all rows of each id), paths in a document and joins along a path in a table; the loop is proved to represent every value on the stack by induction on the number of passes, with the invariants that ids on the stack are distinct and not above the maximal id and that all rows are about ids of the stack or greater ones; representation is proved to determine the document and to relate paths to joins.

Theorems (`PropJson`, `JsonExamples`): `Js.json_represented`, `Js.json_paths`, `Js.json_lossless`, `Js.readLoop_spec`, `Js.visit_spec`, `Js.enc_unique`, `Js.Examples.doc_table`, `Js.Examples.doc_path`, `Js.Examples.doc_ids`.

Scope: For all documents: the reader ends, its table represents the document with id 0 (json_represented), paths in the document correspond to joins of rows with the types and values at the end (json_paths), and tables that are equal as sets belong to equal documents (json_lossless). Documents are trees, parsing is left out; order of members is the order of serde_json's map.

### C65 Tree queries explain all given facts at once — partial

TreeQuery.lean models trace_tree (recursion over lists of facts, unification with each head atom, the product of the rows of all queries, the lookup of steps and rules) on the model of the engine and of the tracing query of C30, and the pass that adds negated atoms with its translation of rule ids. PropTreeQuery.lean defines genuine responses inductively, independent of the order of the search; the theorem is by induction on the largest step of the facts, on top of the theorems on the tracing query and on histories. Counterexamples in TreeQueryExamples.lean.

Theorems (`PropTreeQuery`, `TreeQueryExamples`): `Trace.TreeQ.tree_genuine_partial`, `Trace.TreeQ.treeRec_spec`, `Trace.TreeQ.treeHeads_spec`, `Trace.TreeQ.combos`, `Trace.TreeQ.treeTry_spec`, `Trace.TreeQ.addNegation_spec`, `Trace.TreeQ.Explains.true`, `TreeExample.reachability_tree`, `TreeExample.guarded_response`, `TreeExample.no_response`, `TreeExample.wrong_rule`, `TreeExample.query_fails`.

Scope and gaps: Proved for every reached state, all lists of facts, and all orders of the hash map and of query results, for programs without aggregates and existential variables whose rules have a positive atom and a variable with a value, if no rule was removed before the execution: the query ends without failing, a response is genuine, there is one if all facts are true and there is only one fact or no rule has two head atoms with the same predicate, and there is none if a fact is not true (tree_genuine_partial). The restrictions are needed: no response for true facts that come from different head atoms of a rule (no_response); if rules were removed before the execution, the wrong rule and the tables of its negated atoms are shown (wrong_rule), or the query fails (query_fails). Missing: rules with aggregates and existential variables, import clauses; node queries.

### C66 Node queries show the facts at the nodes of derivation trees — partial

NodeQuery.lean models trace_node: the tables of each node and step, bottom-up (valid_tables_plan with its variables, order and single columns, leaf tables, the cases for simple rules), and the filter, top-down (result_tables_plan and the loop that stops at empty tables), on the model of the engine. PropNodeQuery.lean defines derivations of a given form along the steps of an execution (SatAt), positions in them (Occurs) and explanations by shown facts (Explained), independent of tables; the main lemma shows that the stored assignments of a step are the matches of the rule (from the theorem on rule bodies, for the rule extended by its head atom), then by mutual induction over the query and the stored tables. SingleOp.lean models GeneratorSingle on trie scans (single_spec), and NodeQueryOperator.lean shows that it satisfies what the theorem needs of the choice of rows. Counterexamples in NodeQueryExamples.lean.

Theorems (`PropNodeQuery`, `NodeQueryExamples`, `SingleOp`, `NodeQueryOperator`): `Trace.NodeQ.node_query_partial`, `Trace.NodeQ.satAt_form`, `Trace.NodeQ.validNode_spec`, `Trace.NodeQ.node_assignments`, `Trace.NodeQ.assignments_spec`, `Trace.NodeQ.leaf_spec`, `Trace.NodeQ.filterNode_spec`, `Trace.NodeQ.childResult_spec`, `NodeQueryExample.reachability_query`, `NodeQueryExample.twoSteps_good`, `NodeQueryExample.keepFirst_ok`, `NodeQueryExample.length2_shown`, `NodeQueryExample.restriction_ignored`, `NodeQueryExample.leaf_unrestricted`, `NodeQueryExample.disjoint_unjoined`, `NodeQueryExample.other_head`, `NodeQueryExample.first_rule_only`, `GenSingle.single_spec`, `Trace.NodeQ.operatorRows_spec`, `Trace.NodeQ.operator_ok`, `NodeQueryExample.reachability_operator`.

Scope and gaps: Proved for every reached state, every choice among the matches of a rule (operator_ok shows that GeneratorSingle, run on tries, makes such a choice), and all queries of any depth, for programs without aggregates, imports and existential variables (node_query_partial): the answer at the root are exactly the facts with a derivation of the given form along the steps of the execution, every returned fact occurs at its address in such a derivation (Occurs) and is the head of an instance whose body facts are returned at the children (Explained); such derivations are derivations from the facts of the result (satAt_form). Restrictions (Good), each needed as shown by a counterexample: heads of the rules have distinct variables, at least one (disjoint_unjoined), and different predicates (other_head), each variable of a positive atom occurs twice in the rule (leaf_unrestricted), nodes above arbitrary facts are not restricted (restriction_ignored). Not modelled: ids, pagination, negated atoms, lists of possible rules, tables of further nodes.

### C67 Exports write exactly their files — partial

ExportFiles.lean models the export manager and the loops of the client over the exports, on a file system that maps paths to files and directories; encoders, compressor and sanitiser are parameters. By induction over the exports: what one export can change, what the loop keeps, and the contents after a successful run. ExportFilesExamples.lean models how an export gets its name and compression and shows that files can be read back, and has the counterexamples; ExportResource.lean models when there is a default resource.

Theorems (`ExportFiles`, `ExportFilesExamples`, `ExportResource`): `Exporting.exports_written_partial`, `Exporting.exports_written_tables`, `Exporting.succeeds_iff`, `Exporting.export_none_example`, `Exporting.existing_kept`, `Exporting.only_targets`, `Exporting.fails_early`, `Exporting.export_readable`, `Exporting.default_export_readable`, `Exporting.default_compressed`, `Exporting.empty_not_compressed`, `Exporting.collision_fails`, `Exporting.collision_loses`, `Exporting.collision_gzip`, `Exporting.export_example`, `Exporting.defaultResource_iff`, `Exporting.defaultResource_plain`, `Exporting.urn_panics`, `Exporting.scheme_example`.

Scope and gaps: Proved for all lists of exports, settings and states of the file system, with the encoders, the compressor and the file name library as parameters: existing files are kept without --overwrite-results however the run ends (existing_kept), only files of exports are written (only_targets), a run whose files exist fails before reasoning and leaves everything as it was (fails_early), and if the exports have different files, and those of predicates without facts are not compressed themselves, the run succeeds and each file has the compressed encoding of its rows, the rest being unchanged (exports_written_partial); without --overwrite-results, runs succeed exactly if no file exists, no two exports have the same file and all writers succeed (succeeds_iff); the files can be read by imports without compression parameter (export_readable). Counterexamples to the full property: two exports can have the same file (collision_gzip), in which case the run fails after reasoning or loses the first one; files of compressed exports of predicates without facts are empty (empty_not_compressed); default exports of predicates whose IRI is neither a web address nor a local file panic (defaultResource_iff, urn_panics); exports with a compression but no resource have a name without .gz (default_compressed). Not modelled: creation of directories, other input/output errors, concurrent changes of files.


## Findings

Where a property is false of the code, the exact counterexample is a theorem about the model, named in brackets. The others were
noticed while reading and are not proved.

Columns and tables
1. `filter_interval.rs:296`: `seek` before the first element of a filter without lower bound calls `next`; lines 180-184 choose the inclusive of two equal upper bounds (code used only in tests). [`C06_interval_seek_ignored`, `C06_interval_min_bound`]
2. `columnar/operations/filter.rs:101`: the current value is stale after a failed `seek`. [`C06_filter_stale_current`]
3. `column/rle.rs:341`: division `i64::MIN / -1` panics. [`C02_seek_i64_panics`]
4. Tables without columns: membership and materialization are wrong. [`containsRow_zero_arity_wrong`, `materialize_zero_arity_wrong`, `project_to_nothing`]
5. `row_position` counts only rows whose last value has the same storage type, so that different rows share a position. [`rowPosition_collision`]
6. `order.rs:78-91`: a reference requested in an order that does not commute with its permutation has the wrong columns. [`request_reference_wrong`]
7. `function.rs:91-146`: a copied column to the left of its source is wrong. [`copied_column_wrong`]
8. The join of zero inputs is the empty table; a filter on a missing variable is applied to column 0 (`filter.rs:149`); `null.rs` pops its cache for other types; `single.rs` discards the zero-arity result. (not proved)
9. `table_manager.rs:115` uses the step as an index (unused code); `cover_range` may drop an interval, `defrag` skips a step (performance only).

Plans (33-35 noticed while proving C49, not proved)
33. `execution_plan.rs:893-1025`: projections, functions, aggregates and nulls that are requested in another column order pass this order on to their operand although they use its markers in the original order. The engine makes no such plans; in general the result is wrong, hence the condition `o = ident` in `KindOK`.
34. `compute_cut_layer` (578-593): the last columns of a projection that keeps all columns are dropped if the requesting node has no such markers, even if it uses them under other names; hence `cutOK`. `computed_trees_map.insert` (692-699) forgets earlier orders. `database.rs:494`: the assertion that projections have no dependents does not hold (debug builds).
35. `trie.rs:446`: `0 - 1` overflows (debug builds) for dependents of scans without columns. `null.rs`: `down` for `Id64` does not push to the cache but `up` pops.

Values
10. Hash of `-0.0` and `0.0` differ although they are equal. [`DV.hash_zero_wrong`]
11. 18446744073709551615 and 18446744073709551615.0 are different values. [`Lit.gap_not_same`]
12. `ABS(i64::MIN)`, `i64::MIN % -1` and shifts by 64 or more panic; `BITAND` and others change the sign. [`I64.abs_min_panics`, `I64.rem_min_panics`, `I64.shift_panics`, `bitAnd_sign`]
13. N-ary functions without parameters panic. [`fromTree_empty_nary`]
14. `SUBSTR` with three parameters. [`substringLength_wrong`]; `INT` accepts a sign after a prefix and does not cut at word boundaries. [`cast_sign_after_prefix`, `cast_not_a_boundary`]; `FLOAT(1e300)` and `DATATYPE(null)` panic, `INT(1e300)` saturates. (not proved)
15. Type prediction for constants beyond 64 signed bits. [`constant_prediction_wrong`]
16. `SUM` ignores single-precision numbers, returns the first value of a group without numbers, and its definedness depends on the order; `MAX` orders by storage type. [`sum_drops_f32`, `sum_without_numbers`, `sum_order_dependent`, `max_by_type`]
17. Dictionary: u64 values, long language tags and long labels change or skip ids; empty tuples and maps are conflated. [`unsigned_long_changed`, `long_tag_changed`, `long_label_skips`, `empty_tuples_conflated`, `maps_conflated`]
18. Reading an empty string at the end of a full page panics. [`BBuf.empty_at_page_end`]; the cache of recent pages is never hit. [`Lru.get_never`]

Rules and engine
19. `negation.rs:43`: a negated atom without shared variables is ignored. [`negated_atom_ignored`]
20. Restricted chase creates redundant nulls: facts from imports are not considered, rules with several head atoms, applications without matches. [`import_redundant`, `several_atoms_redundant`, `empty_match_redundant`]
21. `rule.rs:383`: head variables computed by operations are not in the frontier of existential rules, which panics. (not proved)
22. Accepted rules that are evaluated wrongly: conditions over unsafe variables, several aggregates, existential variables in expressions. [`unsafe_condition_ignored`, `two_aggregates_lost`, `existential_term_lost`]

Program transformations and imports
23. Export settings `all`, `edb`, `idb`. [`export_all_drops`, `export_edb_drops`, `exportsT_spec_partial`]
24. Internalized rules: derived facts, conditions, unions and repeated variables are lost; two obsolete rules panic; user-defined `skip`. [`derived_facts_lost`, `condition_lost`, `union_lost`, `repeated_variable_wrong`, `two_obsolete_panic`, `skipped_columns_wrong`]; further cases (a needed column skipped, only the first head atom considered, filters over computed variables, nested aggregates, differing head arities, repeated head variables) are not proved.
25. `tuple_buffer.rs:486-494`: a transformation that fails halfway changes the tuple for the following patterns. [`partial_transformation_leaks`]
26. RDF import: a malformed literal shifts the following values. [`Lit.rdf_malformed_shifts`]; DSV cells that panic. [`Lit.parse_panics`, `Lit.parse_panic`]
27. Values that do not survive DSV export and import. [`Lit.string_cell_changed`, `Lit.ulong_cell`, `Lit.float_cell`, `Lit.null_cell`, `Lit.iri_cell`, `Lit.tuple_cell`, `Lit.float_changed`]
28. A limit of 0 means no limit in the DSV reader and the writers, but no statements in the RDF reader (visible in the specifications of C48).

Tracing
29. Facts derived by rules without positive atoms or without variables have no trace. [`empty_body_untraced`, `nullary_untraced`]
30. The values shown for several computed variables can be swapped. [`assignment_swapped`]
31. The value of an aggregate is not checked, so that the wrong head atom is shown. [`aggregate_unchecked`]
32. The list of inferences for several facts, some of which are not derived, names the wrong final conclusions. [`wrong_conclusion`]

Program texts (each is an example in `ParseExamples` unless marked)
36. Constants whose name starts with `true` or `false` are rejected (`boolean.rs` is tried before constants and needs no word end).
37. `((?x)) + 1` is rejected although `((?x))` is accepted.
38. A comment directly after a name becomes a part of the name, as `%` is a name character (`token.rs:386-403`).
39. An aggregate whose name starts like a known one (`#summary`) is rejected, other unknown names are accepted; predicates named like a builtin in any case (`Str`) are read as that function.
40. After an error the text is skipped to the first dot at the end of a line even across blank lines; the search for blank lines is only used if no such dot follows, so good statements can be lost.
41. Unknown directives keep only their first expression (`directive/unknown.rs:103-112`); rules with empty head or body are accepted by the parser; documentation comments inside a rule are an error.

Translation of programs (each is an example in `TextExamples` unless marked)
42. A type marker on a numeral without fraction and exponent is ignored: `5d` and `5f` are the integer 5. [`marker_ignored`]
43. Integers of more than 63 bits in programs become doubles, unlike the same typed literal or CSV value (`NumberValue::Large` is unreachable). [`large_integer`]
44. Numerals too large for a floating point number (`1e400`, `1e39f`) panic (`basic/number.rs:28,31`). [`large_panics`]
45. `#[name(5)]` on a rule panics: the wrong kind is reported, but an empty list of terms is kept and `rule_name[0]` is out of bounds (`attribute.rs:127,145`, `rule.rs:37`). [`badName_panics`]
46. `_:a` in a program is the IRI `a` (`blank.rs:23`), hence the same as the constant `<a>`. [`blank_is_iri`]
47. Encoded numbers of more than 63 bits get the datatype `xsd:integer` instead of its IRI, and differ from the same typed literal (`enc_number.rs:27`). [`large_encoded`]
48. (code reading) Facts with an operation on structured or aggregate terms (`p(1 + f(2)).`) panic in the validation (`operation.rs:106-111,301`, `normalization/operation.rs:135`).
49. (code reading) `CONCAT()`, `SUM()` and `f""` pass the check of the number of arguments.
50. An equation `?x = ?y` with only `?x` bound does not bind `?y`, while `?y = ?x` does (the left side is preferred, `assignment` in `TextMeaning`).
51. The names of helper predicates for existential rules, `_SATISFIED_i` (`restricted_head.rs:112-116`), can be written in programs as IRIs (`<_SATISFIED_0>(5) .`). Registering them before the execution removes the facts of the program for these predicates (`execution_engine.rs:316-321`, `table_manager.rs:480`), and the rows of the helper tables become answers; with another arity the program panics. [`helper_facts_lost`]
52. Functions of any number of arguments (`SUM`, `PROD`, `MIN`, `MAX`, `LUKA`, `BITAND`, …) with a single argument return it unchanged whatever its type, so that `SUM("a")` is `"a"` (`function/tree.rs:366-396,873-1021` unfold a single argument to the argument itself). [`Verif.Data.single_argument`]
53. A rule head in which an existential variable occurs several times panics once the ids of new nulls do not fit into 32 bits: `up` removes the null from `null_cache` although only the storage type of the column changes, and the repeated column then reads beyond the end (`tabular/operations/null.rs:174-187,210`; `restricted_null.rs:21-28` keeps duplicates). [`repeated_null_panics`]
54. Importing for two groups of at least 32000 bindings each panics: the index that splits the groups is the number of groups (`sparql/reader.rs:239` reads `rest[rest.len()]`). [`Verif.Dem.two_large_factors_panic`]
55. If a SPARQL query fails with an error other than "too large" (HTTP 413) while importing for bindings, the error is ignored and the rows are silently missing (`sparql/reader.rs:111-115`). [`Verif.Dem.failure_ignored`]
56. A query that is too long even with a single binding is generated again for ever (`sparql/reader.rs:274-278`: the page size is halved but at least 1). [`Verif.Dem.long_query_never_ends`]
57. If the server refuses a query with 2 to 31999 bindings as too large then it is asked the same query for ever (`sparql/reader.rs:121` splits the groups of bindings, not the bindings). [`Verif.Dem.too_large_never_ends`]
58. Negated atoms of rules with incremental imports are evaluated before the import: `p(?x, ?w) :- q(?x), imp(?x, ?w), ~s(?x, ?w)` is evaluated as if the negated atom was "no `s(?x, _)`" (`join_cartesian.rs:71-77`). [`Verif.Dem.Example.negation_before_import`]
59. In rules with negated incremental imports, conditions on variables of the negated import only restrict the negated import and not the result (`join_imports_simple.rs:75-83`). [`Verif.Dem.Example.condition_lost`]
60. In rules with incremental imports, assignments of constants (`?z = 5`) are lost together with conditions that use them (`join_cartesian.rs:54-60,220-258`). [`Verif.Dem.Example.constant_lost`]
61. If the key of an incremental import is computed from variables of atoms that are not connected, nothing is imported. [`Verif.Dem.Example.computed_not_bound`]
62. A negated atom over two factors of a rule with incremental imports removes bindings of each factor, so that rows are not imported. [`Verif.Dem.Example.negation_over_factors`]
63. A negated incremental import with a variable that is computed from another import is subtracted before the variable is computed. [`Verif.Dem.Example.negation_before_function`]
64. If a rule uses SPARQL imports of two endpoints, both imports are removed from the program but the rule is not changed, so that it is never applicable. [`Verif.IncExample.two_endpoints_lost`]
65. The new variable for a constant in a negated import atom depends on the predicate and the position only: `~wiki(?x, 5), ~wiki(?x, 6)` leads to contradictory equalities, and the rule is never applicable. [`Verif.IncExample.same_variable_lost`]
66. Anonymous variables in import clauses are all equal: `wiki(?x, _), wikj(?x, _)` are joined on `_`. [`Verif.IncExample.anonymous_joined`]
67. An anonymous variable in another atom makes an import with an anonymous variable count as restricted, so that it is queried without bindings. [`Verif.IncExample.anonymous_unrestricted`]
68. A positive and a negated SPARQL import of a rule are merged into a query that evaluates `NOT EXISTS` without the bindings of the positive pattern: the result is empty as soon as the negated query has any solution. [`Verif.SqExample.negation_merged_wrong`]
69. A rule whose only SPARQL import is negated loses it in `TransformationMergeSparql`, and derives facts that the negation excludes. [`Verif.SqExample.negative_only_wrong`, `negative_only_lost`]
70. If two positive imports cannot be merged (for example `SELECT DISTINCT`, or different datasets), all imports of the rule are lost. [`Verif.SqExample.failed_merge_lost`]
71. Constants are not pushed into `SELECT DISTINCT` queries, but the variable is removed from the clause, so that the columns do not fit. [`Verif.SqExample.distinct_column_lost`]
72. Two negated imports `~a(?x, ?y), ~b(?x, ?y)` are merged into a clause for the conjunction of both. [`Verif.SqExample.negations_merged`]
73. If there is a constant for a variable that is shared by two imports, merging terminates with a panic. [`Verif.SqExample.shared_constant_panics`]
74. If an import is not incremental any more, the equality `?x = 1` is removed from the rule although `?x` occurs in the head, so that the variable is not bound. [`Verif.SqExample.head_variable_lost`]
75. All components of a statement at the same depth get the same id (`register_component` increments the id of the parent for each child), and looking up a component by its id gives the last one: positions in error messages and `ProgramHandle::component` refer to another component. [`Verif.RevExample.component_wrong`]
76. Components below a child that is not the last one may not be found at all by their id. [`Verif.RevExample.component_lost`]
77. `Program::clear_exports` and `clear_imports` do not update the positions of rules: reading the rules afterwards panics or gives other rules. [`Verif.RevExample.cleared_panics`, `Verif.RevExample.cleared_other`]
78. `TransformationSkolemize` never adds the new rule to the commit, so that rules with existential variables are dropped (the transformation is not used by default; read in the code, not modelled).
79. An expression of a parameter in which an ordinary variable occurs next to a parameter inside a nested term (`@parameter $a = 1 + ($b + ?x).`) is accepted, since `is_resolvable` skips all subterms with parameters; the parameter then has no value and stays in the program. [`Verif.Glob.nested_accepted`]
80. `@parameter $a = $b.` is rejected, although `@parameter $a = $b + 0.` is accepted. [`Verif.Glob.alias_rejected`]
81. A parameter whose expression is undefined (`1 - "a"`) is rejected, but the same expression with parameters (`1 - $b`) is accepted, and facts with it are silently dropped. [`Verif.Glob.undefined_accepted`]
82. A fact with a parameter that is declared nowhere is accepted and later makes the program panic in `normalize_fact`; in rule bodies such a parameter acts as an ordinary variable. [`Verif.Glob.undeclared_fact`]
83. Parameters among the distinct variables of an aggregate are not replaced, because `primitive_terms_mut` leaves these out (aggregate.rs:404-412; read in the code, not modelled).
84. The arity of an import (or export) may be known only from a rule that is not active and is removed after validation: `@import p :- csv{resource="a.csv"}. q(?x) :- p(?x). @output p.` is accepted and then panics with "predicate has unknown arity". [`Verif.Ar.lostRule_panics`]
85. The same happens if the arity is known only from a fact with an undefined value, which is dropped: `p(1/0). @export p :- csv{}.` [`Verif.Ar.undefinedFact_panics`]
86. Whether two imports of a predicate are accepted depends on their order: the one that declares the arity must come first. [`Verif.Ar.import_order`]
87. **Tree queries show the wrong rule or fail if rules were removed before the execution** (nemo/src/execution/execution_engine/tracing/tree_query.rs:420-427, 115): for rules without aggregates the id of the rule in the response is the index in the executed program, while for rules with aggregates (line 376) and everywhere else it is the index in the original program; `trace_tree_add_negation` then translates it as if it was one of the original program. If an unused rule was removed, another rule is shown with the tables of its negated atoms (`TreeExample.wrong_rule`), or the lookup panics (`TreeExample.query_fails`).
88. **Tree queries have no response for facts that come from different head atoms of one rule** (tree_query.rs:295-436): for `p(?x), p(?y) :- e(?x,?y)` and `e(1,2)`, both `p(1)` and `p(2)` are explained, but for both together the response is empty, as for facts that are not true (`TreeExample.no_response`); when the entries of a node were derived by different rules, a leaf is shown instead.
89. **Node queries ignore the facts to which a node is restricted** if all its children are unrestricted and the predicates of the body have at most one rule (nemo/src/execution/execution_engine/tracing/node_query.rs:239, 249-255): the complete table of the step is taken instead of the restricted one. A node that is restricted to `p1(1)` shows `p1(2)`. [`Verif.NodeQueryExample.restriction_ignored`]
90. **A leaf that is restricted to facts that are not stored shows all facts** if some variable of its atom occurs nowhere else in the rule (node_query.rs:296-308): the table is only replaced if the restricted table is not empty. [`Verif.NodeQueryExample.leaf_unrestricted`]
91. If the head of a rule has no variable in common with its body, the tables of the children are not joined in node queries (node_query/util.rs:155-179, node_query.rs:367-407): facts are shown from which the head does not follow. [`Verif.NodeQueryExample.disjoint_unjoined`]
92. Constants and repeated variables of the head atom of a node do not restrict its facts (util.rs:63-103): for `p1(?x), p1(5) :- p0(?x)` the facts shown for the second head atom contain `p1(1)`. [`Verif.NodeQueryExample.other_head`]
93. Node queries only find derivations with the rule that derived a fact first: for `p1(?x) :- p0(?x). p1(?x) :- p2(?x).` with `p0(1), p2(1)`, `p1(1)` is not shown for the second rule. [`Verif.NodeQueryExample.first_rule_only`]
94. The export of a predicate without facts to a compressed resource (`p.csv.gz`) is a file of 0 bytes (export_manager.rs:171-174 with formats.rs:171-176: the compressing writer is only created if there is a table), which an import rejects as not decompressible; with `--gzip` instead, the file is a valid archive. [`Verif.Exporting.empty_not_compressed`]
95. Two exports can have the same file, e.g. `p.csv` and `p.csv.gz` with `--gzip`, names that the sanitiser maps to the same name (`a/b.csv`, `a?b.csv`), or the same predicate twice. Validation does not notice; without `--overwrite-results` the run fails after all reasoning is done, with it the first export is silently lost. [`Verif.Exporting.collision_fails`, `Verif.Exporting.collision_loses`, `Verif.Exporting.collision_gzip`]
96. `@export p :- csv{compression="gzip"}` writes compressed data to `p.csv`: `build_export` takes the default extension of the format, not that of the `FileHandler`, which would add `.gz` (format_builder.rs:752-758). [`Verif.Exporting.default_compressed`]
97. `compression="none"` is rejected as unknown compression, since `CompressionFormat::None` has no `from_name` (compression_format.rs:30-34), so compression cannot be switched off for a resource that ends in `.gz`. (not proved)
98. `@export <urn:p> :- csv{}.` panics, and so does every export with default resource of a predicate whose IRI has another scheme than `http`, `https` or `file` (for `file`: with a remote authority or relative path): the default name `urn:p.csv` is parsed as an IRI, whose scheme is not supported, and `default_resource_builder` expects a result (/repo/nemo-physical/src/resource.rs:325-332). [`Verif.Exporting.defaultResource_iff`, `Verif.Exporting.urn_panics`]
