{"id": "C01", "title": "Column storage is lossless", "statement": "Adding any sequence of values to a column builder and finalizing it yields a column whose length, random access and iteration reproduce exactly that sequence, whichever physical encoding (plain vector or run-length) the adaptive builder chose and whenever it switched.", "quantifier": "all value sequences, all decision thresholds and minimum run lengths, every index", "why_tests_cant": "the encoding switch depends on the whole history of runs; tests cover a few sequences and thresholds", "anchors": ["nemo-physical/src/columnar/columnbuilder/rle.rs:ColumnBuilderRle", "nemo-physical/src/columnar/columnbuilder/adaptive.rs:ColumnBuilderAdaptive", "nemo-physical/src/columnar/column/rle.rs:ColumnRle", "nemo-physical/src/columnar/column/vector.rs:ColumnVector"]}
{"id": "C02", "title": "Seek finds the least not-smaller element", "statement": "From any reachable position of a column cursor narrowed to a sorted interval, seek(v) stops at the first element at or after the current position that is >= v (or exhausts the cursor), for plain and run-length encoded columns alike; current and pos agree with it.", "quantifier": "all columns, sorted intervals, cursor positions and sought values, any sequence of next/seek calls", "why_tests_cant": "binary search and run arithmetic have boundary cases for every length and run layout", "anchors": ["nemo-physical/src/columnar/column/vector.rs:ColumnScanVector::seek", "nemo-physical/src/columnar/column/rle.rs:ColumnScanRle::seek"]}
{"id": "C03", "title": "Leapfrog column join is intersection", "statement": "Iterating the join of any number of sorted cursors yields exactly the values common to all of them in ascending order, and mixing next and seek calls behaves like a cursor over that intersection.", "quantifier": "all finite families of strictly sorted columns and all next/seek sequences", "why_tests_cant": "the interleaving of seeks across cursors is unbounded", "anchors": ["nemo-physical/src/columnar/operations/join.rs:ColumnScanJoin"]}
{"id": "C04", "title": "Column union is set union", "statement": "Iterating the union of the active cursors yields exactly the values occurring in some of them, ascending and without repetition, and reports precisely which inputs contain the current value; mixing next and seek behaves like a cursor over that union.", "quantifier": "all finite families of strictly sorted columns, all active sets, all next/seek sequences", "why_tests_cant": "unbounded merge interleavings", "anchors": ["nemo-physical/src/columnar/operations/union.rs:ColumnScanUnion"]}
{"id": "C05", "title": "Column subtraction is set difference", "statement": "Iterating the subtraction yields exactly the values of the main cursor that occur in none of the active subtracted cursors, ascending, and the per-follower equality flags tell exactly which followers contain the current value.", "quantifier": "all sorted main/follower columns, all index sets and activity flags, all next/seek sequences", "why_tests_cant": "the restart loop over followers must be right for every overlap pattern", "anchors": ["nemo-physical/src/columnar/operations/subtract.rs:ColumnScanSubtract"]}
{"id": "C06", "title": "Column filters keep exactly the matching values", "statement": "Filter cursors (condition, equality with a constant or a reference column, interval bounds) yield exactly the values of the input that satisfy the condition, under any mixture of next and seek.", "quantifier": "all sorted inputs, conditions, bounds and call sequences", "why_tests_cant": "state machines with Before/Within/After phases interact with every seek order", "anchors": ["nemo-physical/src/columnar/operations/filter.rs:ColumnScanFilter", "nemo-physical/src/columnar/operations/filter_constant.rs", "nemo-physical/src/columnar/operations/filter_equal.rs", "nemo-physical/src/columnar/operations/filter_interval.rs"]}
{"id": "C07", "title": "A table is exactly the set of rows written to it", "statement": "Building a table from any bag of rows and iterating it yields each distinct row exactly once in lexicographic order of storage values and nothing else.", "quantifier": "all arities, all finite bags of rows over all storage types", "why_tests_cant": "the layered interval representation has a case for every shape of shared prefixes and mixed types", "anchors": ["nemo-physical/src/tabular/trie.rs:Trie::from_tuple_buffer", "nemo-physical/src/tabular/trie.rs:Trie::row_iterator", "nemo-physical/src/tabular/buffer/tuple_buffer.rs:TupleBuffer", "nemo-physical/src/tabular/buffer/sorted_tuple_buffer.rs:SortedTupleBuffer", "nemo-physical/src/tabular/rowscan.rs:RowScan"]}
{"id": "C08", "title": "Row membership and row position are exact", "statement": "contains_row is true exactly for rows of the table, and row_position returns the index of the row in iteration order (within the rows ending in a value of the same storage type).", "quantifier": "all tables and all candidate rows", "why_tests_cant": "quantifies over all tables and rows", "anchors": ["nemo-physical/src/tabular/trie.rs:Trie::contains_row", "nemo-physical/src/tabular/trie.rs:Trie::row_position"]}
{"id": "C09", "title": "Table operators implement relational algebra", "statement": "Join, union, subtraction, projection/reordering, filtering, value generation on tables return exactly the rows prescribed by the corresponding relational algebra operation.", "quantifier": "all input tables, arities and column bindings", "why_tests_cant": "quantifies over all relations and bindings", "anchors": ["nemo-physical/src/tabular/operations/join.rs", "nemo-physical/src/tabular/operations/union.rs", "nemo-physical/src/tabular/operations/subtract.rs", "nemo-physical/src/tabular/operations/projectreorder.rs", "nemo-physical/src/tabular/operations/filter.rs", "nemo-physical/src/tabular/operations/function.rs", "nemo-physical/src/tabular/operations/null.rs"]}
{"id": "C10", "title": "Materializing a scan preserves it", "statement": "Writing any sorted row stream into a table and reading it back yields the same rows, also when trailing layers are cut (projection to a prefix).", "quantifier": "all row streams, all numbers of cut layers", "why_tests_cant": "interval bookkeeping per changed layer over all prefix patterns", "anchors": ["nemo-physical/src/tabular/trie.rs:Trie::from_partial_trie_scan", "nemo-physical/src/columnar/intervalcolumn.rs:IntervalColumnTBuilderTriescan"]}
{"id": "C11", "title": "The dictionary is a bijection", "statement": "Adding a data value returns an id that always maps back to that value; adding an equal value again returns the same id; different values never share an id; earlier ids never change meaning.", "quantifier": "all sequences of add/mark/lookup operations over all kinds of values", "why_tests_cant": "history property over unbounded operation sequences", "anchors": ["nemo-physical/src/dictionary/meta_dv_dict.rs:MetaDvDictionary", "nemo-physical/src/dictionary/bytes_dictionary.rs", "nemo-physical/src/dictionary/ranked_pair_dictionary.rs", "nemo-physical/src/dictionary/tuple_dv_dict.rs"]}
{"id": "C12", "title": "Fresh nulls are fresh", "statement": "Every null created by the dictionary is distinct from all previously created nulls and from all other values.", "quantifier": "all operation histories", "why_tests_cant": "history property", "anchors": ["nemo-physical/src/dictionary/null_dv_dict.rs:NullDvDictionary", "nemo-physical/src/dictionary/meta_dv_dict.rs"]}
{"id": "C13", "title": "String storage never mixes bytes", "statement": "Strings pushed to the paged byte buffer are read back byte for byte, whatever was pushed before or after them.", "quantifier": "all sequences of pushed byte strings", "why_tests_cant": "page boundary arithmetic over all histories", "anchors": ["nemo-physical/src/dictionary/bytes_buffer.rs"]}
{"id": "C14", "title": "Compiled expressions mean what they say", "statement": "Evaluating the stack program compiled from an expression tree gives the value of the tree under the recursive semantics, with undefined results propagating.", "quantifier": "all expression trees and all valuations", "why_tests_cant": "compilation correctness over all trees", "anchors": ["nemo-physical/src/function/evaluation.rs:StackProgram", "nemo-physical/src/function/tree.rs:FunctionTree"]}
{"id": "C15", "title": "Integer arithmetic is exact or undefined", "statement": "Integer builtins return the mathematically exact result if it is representable in 64 bits and otherwise are undefined; they never wrap around.", "quantifier": "all pairs of 64-bit integers", "why_tests_cant": "2^128 input pairs", "anchors": ["nemo-physical/src/function/definitions/numeric/integer64.rs"]}
{"id": "C16", "title": "Aggregates are order independent", "statement": "count/min/max/sum aggregates return the value prescribed by the set of distinct aggregated tuples in the group, independent of row order.", "quantifier": "all groups of rows", "why_tests_cant": "unbounded inputs and orders", "anchors": ["nemo-physical/src/aggregates/processors", "nemo-physical/src/tabular/operations/aggregate.rs"]}
{"id": "C17", "title": "Semi-naive rule application loses and invents nothing", "statement": "One application of a rule at step n derives exactly the head instances whose body matches use at least one fact added since the rule was last applied; together with earlier applications every match over all facts is covered.", "quantifier": "all rules (any number of body atoms), databases and step histories", "why_tests_cant": "quantifies over all histories of rule applications", "anchors": ["nemo/src/execution/planning/operations/join_seminaive.rs:GeneratorJoinSeminaive", "nemo/src/execution/planning/operations/union.rs:UnionRange"]}
{"id": "C18", "title": "Rule scheduling stops only at a fixpoint", "statement": "When the rule selection strategy reports that no rule is left, every rule has been applied without deriving anything new since the last new fact was derived.", "quantifier": "all programs and derivation outcomes, all strategies", "why_tests_cant": "quantifies over all executions", "anchors": ["nemo/src/execution/selection_strategy/strategy_round_robin.rs", "nemo/src/execution/selection_strategy/strategy_random.rs", "nemo/src/execution/selection_strategy/strategy_stratified_negation.rs", "nemo/src/execution/selection_strategy/strategy_graph.rs"]}
{"id": "C19", "title": "Reasoning is sound", "statement": "Every fact reported after execute() is an input fact or follows from the rules: it belongs to every model of the program containing the input facts (for stratified programs: to the perfect model).", "quantifier": "all programs, all inputs, every intermediate state", "why_tests_cant": "quantifies over all programs and executions", "anchors": ["nemo/src/execution/execution_engine.rs:ExecutionEngine::execute", "nemo/src/execution/planning/strategy/forward.rs"]}
{"id": "C20", "title": "Reasoning is complete", "statement": "When execute() returns, the reported facts form a model of the rules: every rule instance with a true body has a true head, so for Datalog the result is the least model.", "quantifier": "all programs and inputs for which execution terminates", "why_tests_cant": "quantifies over all programs and executions", "anchors": ["nemo/src/execution/execution_engine.rs:ExecutionEngine::execute", "nemo/src/execution/planning/strategy/forward.rs"]}
{"id": "C21", "title": "Stratified negation computes the perfect model", "statement": "For programs with negation, negated literals and aggregates are evaluated only after all facts of the negated/aggregated predicates are final, so the result is the stratified (perfect) model.", "quantifier": "all stratifiable programs and inputs", "why_tests_cant": "quantifies over all programs", "anchors": ["nemo/src/execution/selection_strategy/strategy_stratified_negation.rs", "nemo/src/util/labeled_graph.rs:LabeledGraph::stratify", "nemo/src/execution/planning/operations/negation.rs"]}
{"id": "C22", "title": "Non-stratifiable programs are rejected, and only those", "statement": "Program construction reports NonStratifiedProgram exactly if some rule depends on itself through negation or aggregation.", "quantifier": "all rule sets", "why_tests_cant": "quantifies over all rule dependency graphs", "anchors": ["nemo/src/util/labeled_graph.rs:LabeledGraph::stratify", "nemo/src/execution/selection_strategy/strategy_stratified_negation.rs"]}
{"id": "C23", "title": "Datalog execution terminates", "statement": "For programs that cannot create new values, execution performs only finitely many rule applications.", "quantifier": "all Datalog programs and inputs, all strategies", "why_tests_cant": "termination quantifies over all runs", "anchors": ["nemo/src/execution/execution_engine.rs:ExecutionEngine::execute", "nemo/src/execution/selection_strategy/strategy_round_robin.rs"]}
{"id": "C24", "title": "Results do not depend on evaluation order", "statement": "Any two fair executions of a Datalog program, e.g. with different strategies, rule orders or fact orders, end with the same facts.", "quantifier": "all programs, all schedules", "why_tests_cant": "quantifies over all pairs of schedules", "anchors": ["nemo/src/execution/selection_strategy"]}
{"id": "C25", "title": "Restricted chase: existential rules are satisfied and nulls are only created on demand", "statement": "After termination every body match of an existential rule has a satisfied head, and a rule application introduces a fresh null only for a frontier match whose head is not already satisfied by existing facts.", "quantifier": "all existential rules, databases and step histories", "why_tests_cant": "quantifies over all histories of applications", "anchors": ["nemo/src/execution/planning/strategy/forward/restricted.rs", "nemo/src/execution/planning/operations/restricted_head.rs", "nemo/src/execution/planning/operations/restricted_null.rs"]}
{"id": "C26", "title": "Table defragmentation is invisible", "statement": "Fetching the tables of a predicate for any range of steps returns exactly the facts derived in those steps, whatever combination of merged tables is used to answer it.", "quantifier": "all histories of derived and merged tables, all ranges", "why_tests_cant": "interval covering over unbounded histories", "anchors": ["nemo/src/table_manager.rs:SubtableHandler::cover_range", "nemo/src/table_manager.rs:SubtableHandler::normalize_range", "nemo/src/execution/execution_engine.rs:ExecutionEngine::defrag"]}
{"id": "C27", "title": "Row ids identify rows", "statement": "The id reported for a row of a predicate is mapped back to the same row, and ids of different rows differ.", "quantifier": "all predicates, tables and rows", "why_tests_cant": "quantifies over all table histories", "anchors": ["nemo/src/table_manager.rs:TableManager::table_row_id", "nemo/src/table_manager.rs:TableManager::row_by_id"]}
{"id": "C28", "title": "No fact is stored twice", "statement": "The tables derived for a Datalog predicate in different steps are pairwise disjoint; a rule application reports a predicate as updated exactly if it added a new fact to it.", "quantifier": "all programs and histories", "why_tests_cant": "history property", "anchors": ["nemo/src/execution/planning/operations/duplicates.rs", "nemo/src/table_manager.rs:TableManager::execute_plan"]}
{"id": "C29", "title": "Permutations form a group action", "statement": "Column permutations compose, invert and apply consistently: applying a permutation then its inverse restores the sequence, and composition is application in sequence.", "quantifier": "all permutations and sequences", "why_tests_cant": "unbounded sizes", "anchors": ["nemo-physical/src/util/mapping/permutation.rs:Permutation"]}
{"id": "C30", "title": "Explanations are genuine derivations", "statement": "Every trace returned for a fact is a finite tree whose leaves are input facts and whose inner nodes are correct rule applications deriving exactly that fact from facts derived strictly earlier.", "quantifier": "all programs, executions and traced facts", "why_tests_cant": "quantifies over all executions", "anchors": ["nemo/src/execution/execution_engine/tracing/simple.rs", "nemo/src/execution/tracing/trace.rs"]}
{"id": "C31", "title": "Unused-rule elimination preserves outputs", "statement": "Removing rules, facts and imports that cannot contribute to an output predicate leaves all output predicates unchanged.", "quantifier": "all programs and inputs", "why_tests_cant": "quantifies over all programs", "anchors": ["nemo/src/rule_model/pipeline/transformations/active.rs", "nemo/src/rule_model/pipeline/transformations/empty.rs"]}
{"id": "C32", "title": "Quoted output reads back", "statement": "Values written to delimiter-separated or RDF output are read back as the same values.", "quantifier": "all strings", "why_tests_cant": "all strings including delimiters, quotes and escapes", "anchors": ["nemo/src/io/formats/dsv/value_format.rs", "nemo/src/io/formats/dsv/writer.rs", "nemo/src/io/formats/rdf"]}
{"id": "C33", "title": "Import filters keep exactly the matching rows", "statement": "A tuple passes the import filter patterns exactly if some pattern accepts it, and is then transformed by the first accepting pattern.", "quantifier": "all pattern lists and tuples", "why_tests_cant": "quantifies over all patterns and tuples", "anchors": ["nemo-physical/src/tabular/buffer/tuple_buffer.rs:TupleBuffer::match_filters_and_transform"]}
{"id": "C34", "title": "Bit sets are sets", "statement": "Bit set operations (get, set, union, intersection, subset, single, full) agree with finite sets of positions.", "quantifier": "all bit sets and positions below the word size", "why_tests_cant": "2^64 sets", "anchors": ["nemo-physical/src/util/bitset.rs:BitSet"]}
{"id": "C35", "title": "Equal data values compare equal, order is total", "statement": "Comparison of data values is a total order consistent with equality; lexically different spellings of the same number denote the same value.", "quantifier": "all pairs/triples of data values", "why_tests_cant": "quantifies over all triples", "anchors": ["nemo-physical/src/datavalues/any_datavalue.rs"]}
{"id": "C36", "title": "Available column orders are interchangeable", "statement": "Requesting a table in any column order returns the permutation of the stored rows, whichever stored order it is computed from.", "quantifier": "all tables, all stored orders, all requested orders", "why_tests_cant": "unbounded arities and order sets", "anchors": ["nemo-physical/src/management/database/order.rs"]}
{"id": "C37", "title": "Tuples are grouped by their storage types", "statement": "While tuples are added to a table buffer, two tuples are put into the same typed subtable exactly if their values have the same storage types, position by position.", "quantifier": "all sequences of added tuples of all arities", "why_tests_cant": "unbounded histories of insertions into a growing lookup structure", "anchors": ["nemo-physical/src/tabular/buffer/tuple_buffer.rs:TypedTableLookup::subtable_id"]}
{"id": "C38", "title": "Rolling back temporary tables restores the database", "statement": "Deleting everything that was added since a mark leaves all earlier tables with the rows they had, retrievable in any column order, and leaves none of the later tables.", "quantifier": "all histories of added tables, references and requests before and after the mark", "why_tests_cant": "quantifies over all interleavings of additions and requests", "anchors": ["nemo-physical/src/management/database/order.rs:OrderedReferenceManager::delete_from", "nemo-physical/src/management/database.rs:DatabaseInstance::execute_plan"]}
{"id": "C39", "title": "Predicted storage types are sound", "statement": "If an expression evaluates to a value on a row, the storage type of this value is among the types predicted for the result column, so that no computed value is lost.", "quantifier": "all expressions, rows and type assignments", "why_tests_cant": "quantifies over all expressions and values", "anchors": ["nemo-physical/src/function/evaluation.rs:StackProgram", "nemo-physical/src/function/definitions.rs:FunctionTypePropagation"]}
{"id": "C40", "title": "String and casting built-ins follow their definition", "statement": "CONTAINS, STRSTARTS, STRENDS, STRBEFORE, STRAFTER, SUBSTR, STRLEN and CONCAT act on sequences of characters as documented; INT parses exactly decimal numerals in range.", "quantifier": "all strings and positions", "why_tests_cant": "quantifies over all strings", "anchors": ["nemo-physical/src/function/definitions/string.rs", "nemo-physical/src/function/definitions/casting.rs"]}
{"id": "C41", "title": "Answers to existential programs are certain answers", "statement": "For programs with existential rules but without negation and aggregates, every fact the engine has derived at any time can be mapped into every model of program and input by replacing nulls only; so after termination a fact without nulls is an answer if and only if it is true in every model.", "quantifier": "all such programs, inputs and run prefixes", "why_tests_cant": "quantifies over all models and all run prefixes", "anchors": ["nemo/src/execution/planning/strategy/forward.rs", "nemo/src/execution/execution_engine.rs:ExecutionEngine::execute"]}
{"id": "C42", "title": "Export settings select the announced predicates", "statement": "The export settings keep, none, idb, edb and all export exactly the predicates that the documentation names (all exports of the program; nothing; predicates in rule heads; predicates with given or imported facts; all predicates), and a program without outputs and exports outputs all derived predicates.", "quantifier": "all programs and settings", "why_tests_cant": "quantifies over all programs", "anchors": ["nemo/src/rule_model/pipeline/transformations/exports.rs", "nemo/src/rule_model/pipeline/transformations/set_default_outputs.rs"]}
{"id": "C43", "title": "Programs mean what is written", "statement": "For every accepted program (atoms with constants, anonymous and repeated variables and expressions, conditions, negation, expressions and aggregates in heads), the engine reports exactly the facts of the stable model of the program as it is written: rewriting rules into the internal form does not change the facts that they derive.", "quantifier": "all rules without existential variables, all sets of facts, all runs", "why_tests_cant": "quantifies over all rules and all databases", "anchors": ["nemo/src/execution/planning/normalization/rule.rs:normalize_rule", "nemo/src/execution/planning/normalization/atom/body.rs:normalize_atom", "nemo/src/execution/planning/normalization/atom/head.rs:normalize_atom", "nemo/src/execution/planning/normalization/aggregate.rs:normalize_aggregation", "nemo/src/execution/planning/normalization/operation.rs:normalize_head_term"]}
{"id": "C44", "title": "Every rule gets a variable order", "statement": "For every program, the computation of variable orders terminates without failure and gives for each rule an order in which each of its variables occurs exactly once.", "quantifier": "all programs", "why_tests_cant": "quantifies over all programs; the heuristics iterate over sets of column orders", "anchors": ["nemo/src/execution/planning/analysis/variable_order.rs:build_preferable_variable_orders"]}
{"id": "C45", "title": "Accepted rules are safe", "statement": "A rule is accepted by the validation only if every universal head variable, every variable of an expression in an atom and every aggregated variable gets its value from the positive body, there is at most one aggregate, aggregates are not mixed with existential variables, and negated atoms share no variables without a value.", "quantifier": "all rules", "why_tests_cant": "quantifies over all rules", "anchors": ["nemo/src/rule_model/components/rule.rs:validate", "nemo/src/rule_model/components/rule.rs:safe_variables", "nemo/src/rule_model/components/rule.rs:validate_term_head", "nemo/src/rule_model/components/rule.rs:validate_term_body"]}
{"id": "C46", "title": "Evaluating rules while importing does not change the answers", "statement": "If rules with a single body atom for an imported predicate are removed from the program and are applied to the tuples of the import (skipping the columns that are not needed), then the program has the same answers for all output and export predicates.", "quantifier": "all programs and all contents of the imported files", "why_tests_cant": "quantifies over all programs and files; the transformation combines projections, filters and computed values of several rules", "anchors": ["nemo/src/rule_model/pipeline/transformations/filter_imports.rs:TransformationFilterImports::apply", "nemo/src/rule_model/pipeline/transformations/filter_imports.rs:push_projections_and_filters", "nemo/src/execution/planning/normalization/rule.rs:into_filter_transform_pattern", "nemo-physical/src/tabular/filters.rs:with_skips"]}
{"id": "C47", "title": "Numeric literals mean the number that is written", "statement": "Every decimal or integer literal, in any spelling (sign, leading zeros, trailing zeros, decimal point, any number of digits), is accepted exactly if it is a number of its datatype, denotes exactly the number that is written, never panics, and two spellings of one number give equal values and spellings of different numbers different values.", "quantifier": "all character sequences and all numeric datatypes", "why_tests_cant": "texts are unbounded, and the code switches between three number representations depending on size", "anchors": ["nemo-physical/src/datavalues/any_datavalue.rs:new_from_typed_literal", "nemo-physical/src/datavalues/any_datavalue.rs:new_from_decimal_type_literal", "nemo-physical/src/datavalues/any_datavalue.rs:parse_large_decimal_literal"]}
{"id": "C48", "title": "Imports read exactly the well-formed rows", "statement": "Importing a file makes a table with exactly the rows of its well-formed records (statements), up to the limit; malformed records are left out and do not influence other rows; blank nodes become new nulls, different ones for different blank nodes. Exporting writes exactly the rows that can be written.", "quantifier": "all files, column formats, limits and filters", "why_tests_cant": "a malformed record can occur at any position of an unbounded file and its traces in the buffer only show in later rows", "anchors": ["nemo/src/io/formats/dsv/reader.rs:read", "nemo/src/io/formats/dsv/writer.rs:do_export", "nemo/src/io/formats/rdf/reader.rs:read_triples_with_parser", "nemo/src/io/formats/rdf/writer.rs:export_triples", "nemo-physical/src/tabular/buffer/tuple_buffer.rs"]}
{"id": "C49", "title": "Executing a plan computes the tables it describes", "statement": "Executing a plan (a graph of operations over tables, with nodes shared between operations and requested in several column orders) on a database adds, for each permanent output node that has rows, one new table with exactly the rows that the node describes as an expression of relational algebra over the tables of the database, and nothing for the others; existing tables do not change. If a node that is marked as non-empty has no rows, then the execution may stop without a result.", "quantifier": "all plans, all databases in any reachable state, all column orders in which tables are stored and requested, all intermediate results", "why_tests_cant": "sharing, column orders, temporary tables, projections computed in passing and cut columns interact; the number of plans and orders is unbounded", "anchors": ["nemo-physical/src/management/execution_plan.rs:finalize", "nemo-physical/src/management/execution_plan.rs:execution_tree", "nemo-physical/src/management/execution_plan.rs:execution_node", "nemo-physical/src/management/database.rs:execute_plan", "nemo-physical/src/management/database.rs:execute_tree"]}
{"id": "C50", "title": "A program text is read as what is written", "statement": "Every text that is a way of writing a program in the rule language (facts, rules, directives, attributes, comments; expressions with the usual precedence, left associative operators, parentheses, lists with optional trailing comma, white space and comments anywhere between tokens) is parsed without errors to exactly that program; a text is a way of writing at most one program. For every other text the parser also ends without a panic, reads the text to its end, and reports an error exactly if a part of the text was not read as a statement. Errors are local: statements before the bad one are read as written, the text is skipped exactly up to the first dot at the end of a line, and what follows is read as if it stood alone.", "quantifier": "all character sequences, all programs, all ways of writing them", "why_tests_cant": "texts and nesting depth are unbounded; ordered choice with backtracking makes the reading of a text depend on all alternatives that are tried first", "anchors": ["nemo/src/parser.rs:parse", "nemo/src/parser/ast/program.rs:Program::parse", "nemo/src/parser/ast/statement.rs:Statement::parse", "nemo/src/parser/ast/expression.rs:Expression::parse", "nemo/src/parser/ast/expression/complex/arithmetic.rs", "nemo/src/parser/ast/directive.rs", "nemo/src/parser/ast/token.rs", "nemo/src/parser/error.rs:skip_statement"]}
{"id": "C51", "title": "The answers of a program text are what the text means", "statement": "If a program text is read without an error, executing it yields exactly the facts that the text means: the least set of facts that contains the facts stated in the text and the imported facts and is closed under the rules as they are written, where names stand for the full names given by the base and prefixes declared anywhere in the text, expressions have their usual values, `_` matches everything, aggregates are applied to the groups of values given by the other arguments of the head atom, and a negated atom says that no fact matches it whatever the values of its local variables. The program is rejected exactly if negation and aggregation are not stratified in the text; the meaning is unique; programs that compute no new values end.", "quantifier": "all program texts (character sequences) without existential variables, parameters and structured terms; all imported facts; all domains of values with all built-in functions; all orders of evaluation", "why_tests_cant": "the path from characters to facts crosses the parser, the translation, the normalization, the planning and the evaluation; texts and data are unbounded", "anchors": ["nemo/src/rule_model/translation.rs:translate", "nemo/src/rule_model/programs/handle.rs:from_file", "nemo/src/rule_model/translation/rule.rs:build_component", "nemo/src/rule_model/translation/literal.rs:build_component", "nemo/src/rule_model/translation/term.rs:build_component", "nemo/src/execution/execution_engine.rs:execute"]}
{"id": "C52", "title": "Numerals and names of accepted programs mean what is written", "statement": "A numeral without fraction and exponent whose value has 64 bits is read as that integer, all other numerals as the floating point number that is written; binary, octal and hexadecimal numerals are read as the number they write. In an accepted program all abbreviations are declared, there is one base and each prefix has one meaning, and every predicate has a full name; otherwise the program is rejected.", "quantifier": "all numerals, all programs", "why_tests_cant": "numerals and programs are unbounded; declarations can be at any position relative to their uses", "anchors": ["nemo/src/rule_model/translation.rs:resolve_tag", "nemo/src/rule_model/translation/basic/number.rs:build_component", "nemo/src/rule_model/translation/basic/enc_number.rs:build_component", "nemo/src/parser/ast/expression/basic/number.rs:value", "nemo/src/rule_model/translation/directive.rs:handle_prefix"]}
{"id": "C53", "title": "Rules with existential variables mean what is written", "statement": "If the execution of a program with existential rules (heads made of constants, body variables and existential variables; constants, repeated variables, conditions and computed values in bodies) ends, its facts satisfy every rule as it is written: whenever a body holds there are values for the existential variables that make the head true. For programs without negation and aggregates, the facts can be mapped into every set of facts that satisfies the rules, changing nothing but the invented values, and so the facts without invented values are exactly those that are true in every such set. The orders in which variables of heads are evaluated do not matter.", "quantifier": "all such programs, all inputs, all terminating runs", "why_tests_cant": "programs, inputs and runs are unbounded; new values, helper tables and the rewriting of heads into auxiliary rules interact", "anchors": ["nemo/src/execution/planning/normalization/program.rs:construct_auxiliary_existential_rule", "nemo/src/execution/planning/normalization/rule.rs:normalize_existential_head", "nemo/src/execution/planning/operations/restricted_head.rs", "nemo/src/execution/planning/strategy/forward/restricted.rs", "nemo/src/execution/execution_engine.rs:execute"]}
{"id": "C54", "title": "The answers of a program text with existential variables are a universal model", "statement": "If a program text with existential variables is read without an error and its execution ends, the facts satisfy the text: they contain the facts stated in the text and the imported facts and what the rules without existential variables derive, and whenever the body of a rule with existential variables holds there are values for these variables that make the head, as it is written, true. If the text contains no negation, no aggregates and no conditions that distinguish invented values, the facts can be mapped into every set of facts that satisfies the text by replacing invented values only, and the rows without invented values are exactly the certain answers: those that are in every set of facts that satisfies the text.", "quantifier": "all program texts (character sequences) without parameters and structured terms in which heads with existential variables contain no computed values; all imported facts; all domains of values; all terminating runs", "why_tests_cant": "the path from characters to facts crosses the parser, the translation, the normalization, the planning and the chase; texts, data and invented values are unbounded", "anchors": ["nemo/src/rule_model/translation.rs:translate", "nemo/src/rule_model/translation/rule.rs:build_component", "nemo/src/execution/planning/normalization/program.rs:construct_auxiliary_existential_rule", "nemo/src/execution/planning/operations/restricted_head.rs:create_plan", "nemo/src/execution/planning/strategy/forward/restricted.rs", "nemo/src/execution/execution_engine.rs:execute"]}
{"id": "C55", "title": "Functions and aggregates in rules compute the documented functions of data values", "statement": "When a program is executed, a condition or computed value in a rule is the value that its expression has for the data values of the variables: every function name denotes its function, arguments are taken in the order in which they are written, nested expressions are evaluated inside out, and an expression with an undefined part has no value. The aggregate functions count the different rows of a group, select the largest or smallest value, or add the integers. No function computes an invented value that is not among its arguments, and constants are never invented values.", "quantifier": "all expressions that can be written with the built-in functions, all assignments of values to variables, all groups of rows; all libraries of floating point, text and conversion functions; all ways to store values in tables", "why_tests_cant": "expressions nest without bound, groups are of any size, and the functions pass through the translation, the function tree, the stack program and the storage of values", "anchors": ["nemo/src/execution/planning/normalization/operation.rs:function_tree", "nemo-physical/src/function/tree.rs", "nemo-physical/src/function/evaluation.rs", "nemo-physical/src/aggregates/processors", "nemo/src/rule_model/components/term/operation/operation_kind.rs", "nemo-physical/src/datavalues/any_datavalue.rs:try_to_storage_value_t"]}
{"id": "C56", "title": "Demand driven imports deliver exactly the demanded rows", "statement": "When rows of a SPARQL endpoint are imported for given bindings (combinations of values for positions of the imported table, in several groups, old and new), the rows that are delivered are exactly the rows of the endpoint that agree with one binding of each group, at least one of them new, no matter how the bindings are distributed over queries, how long queries may be and which queries the endpoint refuses as too large; the import ends.", "quantifier": "all external tables, servers that answer queries correctly, limits for the length of queries, and groups of old and new bindings of any size", "why_tests_cant": "how bindings are divided into queries depends on their number and length and on refused queries; tests use a few bindings that fit into a single query", "anchors": ["nemo/src/io/formats/sparql/reader.rs:load_from_bindings", "nemo/src/io/formats/sparql/reader.rs:queries_with_bindings", "nemo/src/io/formats/sparql/queries.rs", "nemo-physical/src/datasources/bindings.rs:ProductBindings", "nemo-physical/src/tabular/operations/incremental_import.rs"]}
{"id": "C57", "title": "Rules over incrementally imported data have the same matches as if the data was loaded completely", "statement": "When a rule refers to an external table that is imported incrementally (only the rows that agree with values of the rest of the rule are requested, and only for values that were not requested before), then in every step the rule has exactly the matches that it would have if the whole external table had been a set of facts from the beginning.", "quantifier": "all rules, external tables, facts, and histories of steps in which this and other rules are applied", "why_tests_cant": "which rows are requested depends on the history of all steps and on how the rule is divided into factors; a missing row only shows as a missing answer", "anchors": ["nemo/src/execution/planning/strategy/forward/body.rs:StrategyBody", "nemo/src/execution/planning/operations/join_cartesian.rs", "nemo/src/execution/planning/operations/import.rs", "nemo/src/execution/planning/operations/join_imports_simple.rs", "nemo/src/execution/planning/operations/join_imports_general.rs"]}
{"id": "C58", "title": "Preparing rules does not change their meaning", "statement": "Before a program is validated and executed, every constant and expression in a positive body atom is replaced by a new variable together with an equality. For every program, this changes neither which rules are accepted, nor whether the program is stratified, nor its meaning (stable model, models of existential rules, certain answers): the answers are those of the program as it is written.", "quantifier": "all rules with any number of literals, all programs, all databases and all executions", "why_tests_cant": "New names are generated with a counter that is shared by all rules, and variables that are new interact with the safety of other variables and the scope of negation; tests use a few rules.", "anchors": ["nemo/src/rule_model/pipeline/transformations/normalize.rs:TransformationNormalize", "nemo/src/rule_model/pipeline/transformations/default.rs:TransformationDefault"]}
{"id": "C59", "title": "Loading SPARQL imports on demand does not change the answers", "statement": "When the imports of SPARQL endpoints are not loaded before the rules are applied, but only queried from within the rules that refer to them, then the facts of every exported or derived predicate are the same as if the complete tables had been loaded first; this is done only for tables that are not shown to the user, not derived, have no facts and are imported once, and only if in all rules the queries are restricted by other parts of the rule.", "quantifier": "all programs with any number of rules, imports, facts and exports, all contents of the endpoints, all meanings (stable models) of the programs", "why_tests_cant": "Which imports are affected depends on all statements of the program; whether the answers change depends on the contents of the endpoints and on all matches of the rules.", "anchors": ["nemo/src/rule_model/pipeline/transformations/incremental.rs: TransformationIncremental::apply", "nemo/src/rule_model/components/import_export/clause.rs: ImportClause", "nemo/src/rule_model/programs.rs: derived_predicates"]}
{"id": "C60", "title": "Merging the SPARQL imports of a rule does not change its results", "statement": "When several SPARQL imports that a rule refers to are replaced by a single SPARQL query (renaming the variables of the queries, joining on the variables that the rule's atoms share, and adding the constants that the rule requires as VALUES), the rows of the new query are exactly the combinations of rows of the original queries that agree on the shared variables and have these constants, so that the rule and the whole program have the same results as before.", "quantifier": "all SPARQL queries (nested patterns with joins, OPTIONAL, UNION, MINUS, VALUES, filters, BIND, subqueries), all data of the endpoints, all numbers of imports, shared variables and constants, all programs", "why_tests_cant": "capture of variables depends on the names in the queries, on the order in which sets of variables are enumerated and on nesting of patterns; tests have no endpoint and compare the text of a few queries", "anchors": ["/repo/nemo/src/io/formats/sparql/queries.rs (merge_queries, push_constants, standardize_variables)", "/repo/nemo/src/rule_model/pipeline/transformations/merge_sparql.rs (TransformationMergeSparql)", "/repo/nemo/src/rule_model/components/import_export/clause.rs (ImportClause::try_merge)"]}
{"id": "C61", "title": "Versions of a program are independent, and commits do exactly what was requested", "statement": "A handle on a version of a program always refers to the same statements, in the same order, whatever other commits and transformations are made on the same program later. A commit leads to a version with exactly the statements that were kept or added, in the order of the calls, or, if its report contains errors, to no version and no change at all; several open commits on the same or on different versions do not influence each other. The rule that is shown for a transformed rule is the one that it was made from, and the rules of a materialized program are its rules in order. Looking up a component by its id gives the component with this id.", "quantifier": "all histories of forks, commits, additions, kept statements, errors and submissions, with any number of commits open at the same time; all statements and components", "why_tests_cant": "the state is shared between all versions and all open commits; tests look at a single transformation", "anchors": ["/repo/nemo/src/rule_model/pipeline.rs (ProgramPipeline, register_component, find_component)", "/repo/nemo/src/rule_model/pipeline/commit.rs (ProgramCommit::submit, keep, add_statement)", "/repo/nemo/src/rule_model/pipeline/arena.rs (Arena)", "/repo/nemo/src/rule_model/programs/handle.rs (ProgramHandle)", "/repo/nemo/src/rule_model/programs/program.rs (Program)", "/repo/nemo/src/execution/tracing/resolve_origin.rs (tracing_resolve_origin)"]}
{"id": "C62", "title": "Global parameters have exactly one value, and are replaced by it everywhere", "statement": "If the declarations of global parameters are accepted, then there is exactly one way to assign values to the parameters such that those that are given from outside have the given values and all others have the values of their expressions, independently of the order of the declarations. The program that is run is the program that is written with all parameters replaced: each term of each statement has the value that it has if parameters have these values, and no declared parameter is left. Declarations that depend on each other in a cycle, that are repeated or that have no value are rejected.", "quantifier": "all programs with any number of parameter declarations in any order, all expressions, all values that are given from outside, all values of other variables", "why_tests_cant": "The values are computed in rounds until nothing changes, and the number of rounds depends on the order of the declarations and on the depth of the dependencies; tests have one or two parameters.", "anchors": ["nemo/src/rule_model/programs.rs: validate_parameters", "nemo/src/rule_model/pipeline/transformations/global.rs: TransformationGlobal", "nemo/src/rule_model/substitution.rs: Substitution", "nemo/src/rule_model/components/parameter.rs: ParameterDeclaration", "nemo/src/rule_model/components/term/operation.rs: is_resolvable", "nemo/src/rule_model/components/fact.rs: Fact::validate"]}
{"id": "C63", "title": "Accepted programs use every predicate with one arity, and never fail because of arities", "statement": "A program is accepted only if every predicate is written with the same number of terms in all facts, all rule atoms, all exports and all imports that are used, and if the arity of each used import and each export is declared or can be found in the program. When an accepted program is run, after the statements that do not matter for the outputs and exports are removed, the arity of every remaining predicate is known, and it is the one with which it is written in the program; in particular the engine does not stop with an error about arities.", "quantifier": "all programs with any number of facts, rules, imports, exports and outputs in any order", "why_tests_cant": "Arities are collected from all statements of a program, with several fixed point computations for the predicates that are used; that the statements which determine an arity are not removed later depends on the whole program.", "anchors": ["nemo/src/rule_model/programs.rs: used_predicates, validate_arity", "nemo/src/rule_model/pipeline/transformations/validate.rs: TransformationValidate", "nemo/src/rule_model/pipeline/transformations/active.rs: TransformationActive", "nemo/src/execution/planning/normalization/program.rs: normalize_program, add_predicate_arity", "nemo/src/execution/planning/normalization/import.rs: normalize_import", "nemo/src/execution/planning/normalization/export.rs: normalize_import"]}
{"id": "C64", "title": "Importing JSON loses nothing", "statement": "Importing a JSON file with the json format yields a ternary table from which the document can be read off: the document has id 0, every value of the document has its own id, the rows with this id in the first column are exactly one row with the IRI type and the name of the type, one row with the IRI value and the value for a boolean, number or string, and for an array or object one row for each element or member with its position or name and its id. Hence there is a value at a path of positions and names in the document exactly if rows of the table can be joined along this path, and the joined rows end in the id of this value. Documents that differ have tables that differ as sets of rows.", "quantifier": "all JSON documents of any size and nesting", "why_tests_cant": "Ids are given when a value is taken from a stack, in another order than the one in which values are visited; that no id is used twice, and no row is lost or attached to another id, must hold for every nesting of arrays and objects.", "anchors": ["nemo/src/io/formats/json/reader.rs: JsonReader::provide_table_data"]}
{"id": "C65", "title": "Tree queries explain all given facts at once", "statement": "Asking for a tree of several facts of one predicate returns a response exactly if all facts are true; its entries are these facts in their order. A node of the response is a leaf only if one of its facts is an input fact or its facts were derived by different rules; otherwise it names one rule and one of its head atoms, all its facts are instances of this head atom for matches of the body, the children for the positive atoms are explained in the same way and have as entries the facts of these matches in the same order, and the children for negated atoms are their complete tables. Queries never fail.", "quantifier": "all programs, executions, lists of facts, orders of hash maps and of query results", "why_tests_cant": "The response combines matches that were found for each fact separately, goes through all combinations, and uses ids of rules of two versions of the program; whether it explains the facts depends on the whole history of the execution.", "anchors": ["nemo/src/execution/execution_engine/tracing/tree_query.rs: trace_tree, trace_tree_recursive, trace_tree_add_negation", "nemo/src/execution/tracing/rule_translation.rs"]}
{"id": "C66", "title": "Node queries show the facts at the nodes of derivation trees", "statement": "Asking for the facts at the nodes of a derivation tree of a given form (at each inner node a rule and one of its head atoms, at each node optionally the facts that are allowed) returns at the root exactly the facts that have a derivation of this form in which each fact is derived by the rule application that first derived it during the execution. Every fact that is returned for another node occurs at this position in such a derivation of a returned fact of the root; and every returned fact is the head of an instance of the rule of its node whose positive body atoms are returned at the child nodes.", "quantifier": "all programs, all inputs, all states of the execution, all trees of rules and lists of allowed facts of any depth, and all choices among the matches of a rule for the same head", "why_tests_cant": "The tables of the nodes are computed bottom-up, by step and with joins on the variables of head and body, and then filtered top-down; whether joins, steps and the cases for simple rules fit together depends on the rules, the history of the execution, the depth of the tree and the restrictions, and tests only compare a few responses.", "anchors": ["nemo/src/execution/execution_engine/tracing/node_query.rs: trace_node, trace_node_valid, trace_node_filter", "nemo/src/execution/execution_engine/tracing/node_query/util.rs: valid_tables_plan, result_tables_plan, variable_translation", "nemo/src/execution/execution_engine/tracing/node_query/manager.rs: TraceNodeManager", "nemo-physical/src/tabular/operations/single.rs: GeneratorSingle"]}
{"id": "C67", "title": "Exports write exactly their files", "statement": "When a program is run by the command line client, each export that is not to standard output writes one file of the export directory, which afterwards contains the encoding of the rows of its predicate in its format, compressed at most once: if the export says so, or, with an added extension, if compression is the default. An import of this file reads the same encoding. All other files stay as they were; existing files are never changed unless overwriting was asked for, and then the run fails before anything is computed. Exports to standard output appear in order.", "quantifier": "all lists of exports, resources, compressions, formats and rows, all export settings and all states of the file system", "why_tests_cant": "Tests export single tables into empty directories; that no combination of exports, names, settings and existing files can damage a file or lose an export is a statement about all of them.", "anchors": ["nemo/src/io/export_manager.rs: ExportManager::{validate,sanitized_path,writer,export_table,open_options}", "nemo/src/io/compression_format.rs", "nemo/src/io/formats.rs: Export", "nemo/src/io/format_builder.rs: build_export", "nemo-cli/src/main.rs: run"]}
