{"id": "C01", "title": "Source files split into items without losing or merging code", "statement": "Parsing a source file cuts the text into items at blank lines: every non-blank line belongs to exactly one item, lines keep their order, two adjacent non-blank lines are in the same item, two lines separated by a blank line never are, and no item contains a blank line.", "quantifier": "every source text, of any length, with any mix of blank and non-blank lines", "why_tests_cant": "the set of texts is infinite and the block boundary logic carries state from line to line", "anchors": ["ogma/src/lang/syntax/parse/file.rs: split_items", "ogma/src/lang/syntax/parse/file.rs: file"]}
{"id": "C02", "title": "Batch items keep their definition-before-use order and multiplicity", "statement": "Turning a parsed file into a batch yields each item of the file exactly once, with all type definitions first, then all command definitions, then all expressions, each group in source order; a batch runs in parallel unless the file says no-parallelise and fails fast only if the file says fail-fast.", "quantifier": "every list of file items and directives", "why_tests_cant": "needs all interleavings of item kinds and directives", "anchors": ["ogma/src/rt/bat.rs: parse_str"]}
{"id": "C03", "title": "Reported line numbers are the real line numbers", "statement": "The line number attached to an item (used in error messages and batch reports) is one plus the number of newlines before the item in the file, for any file in which that number fits 16 bits; beyond that the tool aborts rather than reporting a wrong line.", "quantifier": "every text and every offset of an item in it", "why_tests_cant": "off-by-one and overflow behaviour over unbounded file length", "anchors": ["ogma/src/lang/syntax/parse/file.rs: line_num"]}
{"id": "C04", "title": "Built-in commands cannot be redefined", "statement": "Whatever sequence of user definitions, type definitions and clears is performed, the built-in registered for a given command name and key (an input type, or no input type) stays registered and is what a lookup at that key returns; a generic built-in can at most be shadowed for one input type by a definition for that input type.", "quantifier": "every history of command definitions, type definitions and clears, every command name and input type", "why_tests_cant": "ranges over unbounded histories and interaction between commands and type constructors", "anchors": ["ogma/src/lang/impls/mod.rs: insert_impl, insert_intrinsic, clear, add_typedef_init_impls", "ogma/src/lang/defs.rs: process_definition"]}
{"id": "C05", "title": "A type-specific definition wins over a generic one", "statement": "A command lookup for input type T returns the implementation registered for T if there is one, otherwise the input-agnostic one, otherwise reports not found; defining or redefining the command for another input type never changes the answer for T.", "quantifier": "every definition store reachable by definitions and clears, every name and type", "why_tests_cant": "needs all overlaps of typed and agnostic entries and all histories", "anchors": ["ogma/src/lang/impls/mod.rs: get_impl, insert_impl"]}
{"id": "C06", "title": "Clearing definitions removes exactly the user's definitions", "statement": "`def --clear` leaves every built-in definition in place and removes every definition that came from the shell or from a file; clearing only files keeps shell definitions; clearing is idempotent and a second definition with a cleared name behaves like a first definition.", "quantifier": "every reachable definition store", "why_tests_cant": "over all histories", "anchors": ["ogma/src/lang/impls/mod.rs: clear", "ogma/src/lang/types.rs: Types::clear", "ogma/src/lang/defs.rs: Definitions::clear"]}
{"id": "C07", "title": "Types are never redefined and never refer to unknown types", "statement": "Between clears a defined type keeps its definition: any attempt to define an existing name is an error that leaves the store unchanged; every successfully defined type only has fields whose types were already defined; primitive types are always present.", "quantifier": "every history of type definitions and clears", "why_tests_cant": "unbounded histories", "anchors": ["ogma/src/lang/types.rs: insert_inner, clear"]}
{"id": "C08", "title": "Tuple types are identified by their members", "statement": "Two tuple types with different member lists are different types, and reading back the printed name of a tuple type yields the same tuple type.", "quantifier": "every list of member types, nested to any depth, including user-named types", "why_tests_cant": "needs injectivity over all nestings and names", "anchors": ["ogma/src/lang/types.rs: Tuple::name, Tuple::ty, Tuple::parse_name, Split::parse"]}
{"id": "C09", "title": "Constructing and accessing a record field round-trips", "statement": "For a product type, building a value and reading field f gives the value supplied for f, for owned and shared values alike; constructing with the wrong number of arguments is an error.", "quantifier": "every product type with distinct field names, every argument list", "why_tests_cant": "all arities and field positions", "anchors": ["ogma/src/lang/impls/mod.rs: typedef_init", "ogma/src/lang/impls/intrinsics/pipeline.rs: FieldAccessor::get", "ogma/src/lang/impls/intrinsics/pipeline.rs: get"]}
{"id": "C10", "title": "The partition tree stays well formed", "statement": "However source files are added to the partition graph, the graph is a forest under the three roots: every non-root item has a parent boundary created before it that lists it as a child exactly once, every child link points back to its parent, each boundary contains at most one child boundary and at most one type of a given name, and items of earlier files keep their identity.", "quantifier": "every sequence of root extensions with any files, types, commands", "why_tests_cant": "inductive invariant over unbounded growth", "anchors": ["ogma/src/lang/defs2/partitions/mod.rs: extend_root, get_or_create_boundary_path, add_node, add_type, add_impl"]}
{"id": "C11", "title": "Name lookup by binary search equals a full scan", "statement": "Searching a set of partition items for a name returns exactly the items of that name, whatever the set contains.", "quantifier": "every partition graph and every set of item ids", "why_tests_cant": "needs every ordering and every duplicate pattern", "anchors": ["ogma/src/lang/defs2/partitions/partset.rs: from_vec, find, contains_id"]}
{"id": "C12", "title": "Items that are not exported cannot be imported", "statement": "Every type or command that an import brings into scope from another partition was exported by that partition; boundaries are the only items visible without an export. An import that matches nothing is an error.", "quantifier": "every partition graph, every import path and glob", "why_tests_cant": "all graphs, all relative paths, all glob patterns", "anchors": ["ogma/src/lang/defs2/partitions/mod.rs: resolve_import, find_boundary, add_imports, add_exports"]}
{"id": "C13", "title": "Path resolution finds exactly the items the path denotes", "statement": "Resolving a path yields exactly the set of items reachable by walking the path's components through the tree (with `..`, `/`, `//`), each once.", "quantifier": "every partition graph, starting item and path", "why_tests_cant": "path length and tree shape unbounded", "anchors": ["ogma/src/lang/defs2/partitions/mod.rs: find, bnd_and_imports"]}
{"id": "C14", "title": "Ambiguous names are reported, never silently chosen", "statement": "Resolving a command for an input type succeeds iff exactly one candidate is defined for that exact type, or none is and exactly one candidate is generic; two candidates of the winning kind give an ambiguity error and no candidates give not-found.", "quantifier": "every list of candidates in any order", "why_tests_cant": "all candidate multisets and orders", "anchors": ["ogma/src/lang/defs2/mod.rs: Impls::get, Types::get"]}
{"id": "C15", "title": "Table commands give the same answer on owned and shared tables", "statement": "Each table command has an in-place path used when the table is uniquely owned and a copying path used when it is shared; both produce the same table.", "quantifier": "every rectangular table and every command argument, for filter, filter --cols, skip, take, rev, dedup, ren, pick, append, map, sort", "why_tests_cant": "sharing depends on run-time reference counts, so tests exercise only one path", "anchors": ["ogma/src/lang/impls/intrinsics/morphism.rs: filter_table, skip_table, take_table, rev_table, dedup_table"]}
{"id": "C16", "title": "Table commands preserve rectangular shape and the header row", "statement": "Every built-in table command maps a table whose rows all have the same width to a table whose rows all have the same width, and commands that only select or reorder rows leave the header row untouched.", "quantifier": "every table and every argument", "why_tests_cant": "unbounded table sizes and command chains", "anchors": ["ogma/src/lang/impls/intrinsics/morphism.rs", "ogma/src/lang/impls/intrinsics/arithmetic.rs: add_table2", "ogma/src/lang/impls/intrinsics/pipeline.rs: range, Table"]}
{"id": "C17", "title": "filter keeps exactly the rows satisfying the predicate, in order", "statement": "`filter p` keeps the header and precisely those data rows for which p is true, in their original order; if p fails on some row the whole command fails.", "quantifier": "every table and every predicate", "why_tests_cant": "all tables, all predicates", "anchors": ["ogma/src/lang/impls/intrinsics/morphism.rs: filter_table, filter_table_row, filter_table_columns"]}
{"id": "C18", "title": "take and skip split a value without loss", "statement": "For any n, `take n` followed by the data of `skip n` is the original data, both keep the header; `take n` has min(n,len) items and `skip n` the rest. Same for strings.", "quantifier": "every table or string and every count", "why_tests_cant": "boundary values of n and of the table size, including the largest count", "anchors": ["ogma/src/lang/impls/intrinsics/morphism.rs: skip_table, take_table, skip_str, take_str", "ogma/src/lang/impls/intrinsics/mod.rs: cnv_num_to_uint"]}
{"id": "C19", "title": "sort yields a sorted permutation", "statement": "`sort` returns the header followed by a permutation of the data rows ordered by the last listed column, ties ordered by the column listed before it, and so on (the help says the first column is sorted first), with remaining ties in original order; `sort-by` does the same for a computed key; `rev` is an involution.", "quantifier": "every table, every list of columns, every key function", "why_tests_cant": "permutation and stability over unbounded tables; mixed-type columns", "anchors": ["ogma/src/lang/impls/intrinsics/morphism.rs: sort_table, cmp_table_entries, sort_by_table, rev_table"]}
{"id": "C20", "title": "Comparing table cells is a total order on kinds", "statement": "The order used to sort cells is reflexive, transitive and total for cells without NaN, and places booleans, numbers, strings, user values, nil, tables, rows in that order.", "quantifier": "every triple of cell values", "why_tests_cant": "transitivity over all triples of mixed kinds", "anchors": ["ogma/src/lang/impls/intrinsics/morphism.rs: cmp_table_entries, entry_discriminant"]}
{"id": "C21", "title": "grp partitions the rows", "statement": "Grouping by columns puts every data row in exactly one group, rows in one group agree on the printed key, groups are in key order and rows keep their original order; two rows with different values in the key columns are never in the same group.", "quantifier": "every table and every list of key columns", "why_tests_cant": "all key collisions", "anchors": ["ogma/src/lang/impls/intrinsics/morphism.rs: grp_table, grp_by_table"]}
{"id": "C22", "title": "dedup removes only adjacent duplicates", "statement": "`dedup` keeps the header and removes a data row iff it equals the previously kept data row on the chosen columns.", "quantifier": "every table and every column list; every string", "why_tests_cant": "all run lengths and the header boundary", "anchors": ["ogma/src/lang/impls/intrinsics/morphism.rs: dedup_table, dedup_str"]}
{"id": "C23", "title": "append, map, pick and ren touch only the columns they name", "statement": "`append` adds its columns on the right and leaves existing cells alone; `map` changes only the named column; `pick` yields exactly the named columns in the order given (plus the trailing or added ones when asked); `ren` changes only headers, and swapping two names in one command works.", "quantifier": "every table, every list of columns or bindings", "why_tests_cant": "all column positions, duplicates and overlaps", "anchors": ["ogma/src/lang/impls/intrinsics/morphism.rs: append_table, map_table, pick_table, ren_table"]}
{"id": "C24", "title": "Table addition has the documented shape", "statement": "Adding tables by row or by column with union or intersection yields the documented number of rows and columns, and every original cell that survives is at its documented place.", "quantifier": "every pair of tables and every flag combination", "why_tests_cant": "all relative sizes including empty tables", "anchors": ["ogma/src/lang/impls/intrinsics/arithmetic.rs: add_table2"]}
{"id": "C25", "title": "Row-parallel commands do not depend on scheduling", "statement": "Commands that evaluate an expression per row in parallel return the same table as evaluating rows one at a time; they fail iff some row fails.", "quantifier": "every schedule of row evaluations", "why_tests_cant": "schedules cannot be enumerated by tests", "anchors": ["ogma/src/lang/impls/intrinsics/mod.rs: par_over_tablerows, resolve_trow_expr_par"]}
{"id": "C26", "title": "Comparison operators agree with each other", "statement": "For values of a comparable type: `!=` is the negation of `=`, exactly one of `<`, `=`, `>` holds for non-NaN values, `<=` is `<` or `=`, `>=` is `>` or `=`, the order is transitive; tuples compare lexicographically.", "quantifier": "every pair and triple of values, tuples of every arity and nesting", "why_tests_cant": "order laws over infinite value sets and arities", "anchors": ["ogma/src/lang/impls/intrinsics/cmp.rs", "ogma/src/lang/defs.rs: derived operators"]}
{"id": "C27", "title": "Variadic arithmetic and logic fold left to right", "statement": "An operator with n arguments equals the left fold of the binary operator; `and` is true iff all arguments are, `or` iff any is; once the outcome is decided later arguments are not evaluated (but the first two always are).", "quantifier": "every argument count and every pattern of values and failures", "why_tests_cant": "all arities and evaluation-order effects", "anchors": ["ogma/src/lang/impls/intrinsics/mod.rs: variadic_intrinsic_in_constrained, variadic_intrinsic_in_agnostic", "ogma/src/lang/impls/intrinsics/logic.rs", "ogma/src/lang/impls/intrinsics/arithmetic.rs"]}
{"id": "C28", "title": "if runs exactly one branch", "statement": "`if` evaluates predicates in order up to the first true one and then only that branch; an even number of arguments is rejected.", "quantifier": "every number of branches and every pattern of predicate results and failures", "why_tests_cant": "all branch counts, evaluation effects", "anchors": ["ogma/src/lang/impls/intrinsics/logic.rs: if"]}
{"id": "C29", "title": "A pipeline is sequential composition and stops at the first error", "statement": "Evaluating a chain of blocks equals evaluating its first part then the rest with the value produced; nothing after a failing block runs.", "quantifier": "every block sequence, split point and environment", "why_tests_cant": "unbounded pipelines", "anchors": ["ogma/src/eng/eval.rs: Stack::eval", "ogma/src/eng/step.rs"]}
{"id": "C30", "title": "Variables set inside a nested expression do not leak out", "statement": "Evaluating an argument expression or a user command never changes the caller's variables; a user command sees only its parameters.", "quantifier": "every nesting of expressions and definitions", "why_tests_cant": "unbounded nesting", "anchors": ["ogma/src/eng/arg.rs: resolve", "ogma/src/eng/step.rs: Step::def", "ogma/src/eng/eval.rs: CodeInjector", "ogma/src/eng/var.rs"]}
{"id": "C31", "title": "Variable names resolve lexically, whatever order they are discovered in", "statement": "After the compiler has added variables in any order, each node resolves a name to the definition on the nearest enclosing or preceding node that defines it, and to nothing if there is none; definitions never become visible across a command boundary.", "quantifier": "every syntax tree, every set of definitions and every order of discovery", "why_tests_cant": "the compile loop discovers variables in data-dependent order", "anchors": ["ogma/src/eng/graphs/locals_graph.rs: flow, accrete, add_new_var, get"]}
{"id": "C32", "title": "Distinct variables get distinct storage", "statement": "Every variable created during compilation has its own slot below the total number of variables, so writing one never changes another.", "quantifier": "every sequence of variable creations", "why_tests_cant": "histories", "anchors": ["ogma/src/eng/graphs/locals_graph.rs: add_new_var", "ogma/src/eng/var.rs"]}
{"id": "C33", "title": "Resolved types are stable and consistent", "statement": "Once the type checker has settled a node's type it never changes to another type, and when type resolution succeeds the two ends of every processed flow agree on the type.", "quantifier": "every type graph and every sequence of resolution steps and changes", "why_tests_cant": "fixpoint iteration over arbitrary graphs", "anchors": ["ogma/src/eng/graphs/tygraph.rs: flow_types, can_flow, apply_chg", "ogma/src/eng/comp/resolve_tg.rs"]}
{"id": "C34", "title": "Type resolution always terminates", "statement": "Resolving the type graph finishes after at most as many rounds as there are edges plus one.", "quantifier": "every type graph", "why_tests_cant": "termination over all graphs", "anchors": ["ogma/src/eng/comp/resolve_tg.rs: resolve_tg", "ogma/src/eng/graphs/tygraph.rs: flow_types"]}
{"id": "C35", "title": "Type resolution reports conflicts instead of crashing", "statement": "Type resolution returns a result or a conflict error on every graph; it never hits an unimplemented case.", "quantifier": "every type graph state at the point where types flow", "why_tests_cant": "the crash cases depend on combinations of knowledge on both ends of an edge", "anchors": ["ogma/src/eng/graphs/tygraph.rs: can_flow"]}
{"id": "C36", "title": "Type inference picks a type only when it is the only one that works", "statement": "Trying candidate types for a node yields a type iff exactly one candidate compiles; the verdict does not depend on the order in which candidates are tried.", "quantifier": "every candidate set and every trial order", "why_tests_cant": "hash-set iteration order is arbitrary", "anchors": ["ogma/src/eng/comp/infer.rs: test_compile_types"]}
{"id": "C37", "title": "Every argument and flag is used or reported", "statement": "When a command compiles, each argument and flag written by the user was consumed by the command exactly once and in order; a leftover flag or argument is an error.", "quantifier": "every sequence of argument and flag requests", "why_tests_cant": "all request sequences", "anchors": ["ogma/src/eng/blk.rs: next_arg, get_flag, finalise"]}
{"id": "C38", "title": "Recursive definitions are rejected, expansion terminates", "statement": "Expanding user commands into the program graph terminates for every set of definitions: it either finishes or reports an error, including self-referential definitions.", "quantifier": "every set of definitions", "why_tests_cant": "unbounded expansion", "anchors": ["ogma/src/eng/graphs/astgraph.rs: init, expand_def"]}
{"id": "C39", "title": "Batch results line up with items under every schedule", "statement": "A batch returns one outcome per item, in item order; definitions run in order before any expression; without fail-fast every item is processed whatever fails and in whatever order expressions run; with fail-fast an unprocessed item implies that some processed item failed or the batch was cancelled.", "quantifier": "every batch, every parallel schedule and every failure pattern", "why_tests_cant": "schedules and failure timings", "anchors": ["ogma/src/rt/bat.rs: process"]}
{"id": "C40", "title": "Cancelling a batch stops it", "statement": "After a batch is cancelled no further item is started and unprocessed items are reported as cancelled.", "quantifier": "every batch, every point of cancellation, fail-fast on or off", "why_tests_cant": "timing of cancellation relative to items", "anchors": ["ogma/src/rt/bat.rs: process"]}
{"id": "C41", "title": "The file cache returns what was read from that file", "statement": "`open` returns the contents last read from the requested file since the last change notification for it; contents of one file are never returned for another, nor a table for a text request.", "quantifier": "every history of reads, change notifications and expiries, every pair of paths", "why_tests_cant": "histories and path aliasing", "anchors": ["ogma/src/rt/fscache.rs", "ogma/src/lang/impls/intrinsics/io.rs: open"]}
{"id": "C42", "title": "save never writes outside the root directory", "statement": "A `save` that succeeds writes to a path inside the root directory.", "quantifier": "every path argument and working directory", "why_tests_cant": "all component sequences", "anchors": ["ogma/src/lang/impls/intrinsics/io.rs: save"]}
{"id": "C43", "title": "open and cd never leave the root directory", "statement": "A path accepted by `open` or the shell's `cd` denotes a location inside the root.", "quantifier": "every path, working directory and link layout", "why_tests_cant": "all component sequences", "anchors": ["ogma/src/lang/impls/intrinsics/io.rs: scrub_filepath", "ogma-shell/lib.rs: validate_path"]}
{"id": "C44", "title": "Printed tables account for every row and column", "statement": "The number of rows shown plus the number reported as elided equals the number of data rows, likewise for columns, and shown rows are the first and last ones.", "quantifier": "every table size", "why_tests_cant": "all sizes around the limits", "anchors": ["ogma/src/output/print.rs: print_table, fmt_row"]}
{"id": "C45", "title": "Saved tables keep their cell structure", "statement": "A saved table has one record per row and one field per cell, and a cell text with separators, quotes or newlines can be recovered from the file.", "quantifier": "every table of strings", "why_tests_cant": "all texts with special characters", "anchors": ["ogma/src/lang/impls/intrinsics/io.rs: write_file"]}
{"id": "C46", "title": "Document edits converge whatever order they arrive in", "statement": "The language server's copy of a document after receiving versioned edits in any order equals applying them in version order; edits after a missing version wait for it.", "quantifier": "every sequence of edits and every delivery order", "why_tests_cant": "delivery orders", "anchors": ["ogma-ls/workspace.rs: File::add_changes, apply_pending"]}
{"id": "C47", "title": "The shell's line editor behaves like a text cursor", "statement": "Any sequence of key operations keeps the cursor within the line and yields the text a two-sided cursor would: insertion before the cursor, backspace and delete next to it, moves that never change the text.", "quantifier": "every sequence of edit operations", "why_tests_cant": "operation histories", "anchors": ["ogma-shell/interface/input.rs: InputBuffer"]}
{"id": "C48", "title": "The shell's history keeps the latest lines", "statement": "History holds the last 100 lines in order; stepping back k times from rest shows the k-th most recent line; navigation never shows a line that was not entered.", "quantifier": "every sequence of add, back and forward", "why_tests_cant": "histories", "anchors": ["ogma-shell/interface/history.rs: History"]}
{"id": "C49", "title": "Stale completions are never shown", "statement": "Completion items shown after a request come only from replies to the latest request, whatever order replies arrive in.", "quantifier": "every interleaving of requests and replies", "why_tests_cant": "schedules", "anchors": ["ogma-shell/interface/completions.rs: request, recv"]}
{"id": "C50", "title": "range, len and nth agree", "statement": "`range a b` has b-a data rows holding a..b-1 in order, `nth i` returns data row i iff i is less than `len` and is an error otherwise, `last` is `nth (len-1)`.", "quantifier": "every table, index and bound", "why_tests_cant": "all boundaries incl. the largest index", "anchors": ["ogma/src/lang/impls/intrinsics/pipeline.rs: range, nth_table, len_table"]}
{"id": "C51", "title": "Parsing a printed expression gives the expression back", "statement": "Writing an expression, or a definition of a command or a type, in canonical form and parsing it yields the same again; and everything the parser accepts can be written in this form.", "quantifier": "every expression, nested to any depth, every definition, and every text the parser accepts", "why_tests_cant": "infinite grammar", "anchors": ["ogma/src/lang/syntax/parse/mod.rs: parse, expr, block, op, path, arg, term, ident, num, maybe_infix, def_impl_inner, def_type_inner"]}
{"id": "C52", "title": "Cell reads by column name are type checked", "statement": "Reading a column of a row by name gives the cell under the first header equal to the name; with a default, cells of another type give the default; without one they are an error; a missing column is always an error; repeated reads through the cache agree with uncached reads.", "quantifier": "every table, column name and order of reads", "why_tests_cant": "shared header cache makes results depend on read history if wrong", "anchors": ["ogma/src/lang/types.rs: TableRow::col_idx, get_col_idx, cnv_value", "ogma/src/lang/impls/intrinsics/pipeline.rs: get_tabrow, table_row_get"]}
{"id": "C53", "title": "Choosing a completion replaces exactly the word at the cursor", "statement": "After completions are requested, any sequence of Up/Down presses and arriving replies leaves the line equal to the text before the word, then the choice, then the text right of the cursor, with the cursor after the choice; the choice is the word as typed or one of the items shown, and the arrows walk through them in a circle.", "quantifier": "every line, cursor position, multi-byte text, reply schedule and key sequence", "why_tests_cant": "key histories interleaved with replies", "anchors": ["ogma-shell/interface/completions.rs: request, highlight_next, highlight_prev, replace_with", "ogma-shell/interface/mod.rs: mv_completions"]}
{"id": "C54", "title": "The shell survives every key sequence and keeps a tab selected", "statement": "No sequence of events crashes the shell; while it runs some tab is open and selected; keys other than those opening, closing or switching tabs affect only the selected tab.", "quantifier": "every sequence of event batches and completion replies", "why_tests_cant": "event histories, batching of events by the terminal", "anchors": ["ogma-shell/interface/mod.rs: process_event, events_cycle, quit_tab, tab_state"]}
{"id": "C55", "title": "Enter evaluates the line as it is when Enter is pressed", "statement": "The text handed to the evaluator is the selected tab's line at the moment Enter is pressed; afterwards the line is empty and Up shows the evaluated text again.", "quantifier": "every event sequence, however the terminal batches it", "why_tests_cant": "batching of events is timing dependent", "anchors": ["ogma-shell/interface/mod.rs: events_cycle, eval, mv_history"]}
{"id": "C56", "title": "Outputs keep the latest results and scrolling stays in range", "statement": "After any sequence of outputs, re-renderings and scrolls, the outputs kept are the latest ones up to the limit, in order, and the scroll position lies within the rendered lines.", "quantifier": "every sequence of output operations and heights", "why_tests_cant": "histories, integer truncation", "anchors": ["ogma-shell/interface/outputs.rs: Outputs"]}
{"id": "C57", "title": "Directives at the top of a file mean what they say", "statement": "Directives written in brackets at the top of a source file (no-parallelise, fail-fast, import(...), export(...)), one or more per line and on any number of lines, are read back exactly as written and in order, and nothing else is taken for a directive: every piece of text taken as a directive line is a bracketed list in the directive grammar on one line.", "quantifier": "every list of directive lines, every import path and glob, every file body", "why_tests_cant": "unbounded lists, names and globs, and hand-written parsers with backtracking", "anchors": ["ogma/src/lang/syntax/parse/file.rs: directive_line", "ogma/src/lang/syntax/parse/file.rs: import", "ogma/src/lang/syntax/parse/file.rs: exports"]}
{"id": "C58", "title": "Documentation is attached to the item below it", "statement": "The comment lines directly above an item's code become that item's documentation, whatever comes before; comment lines at the top of a file that are separated from the first item document the file.", "quantifier": "every source text", "why_tests_cant": "depends on the blank lines, line endings and directives around the comments", "anchors": ["ogma/src/lang/syntax/parse/file.rs: file", "ogma/src/lang/syntax/parse/file.rs: doc_comment"]}
{"id": "C59", "title": "Folds visit data rows in order", "statement": "`fold` applies the accumulator to every data row exactly once, first to last, starting from the seed, never to the header, and stops at the first error; `fold-while` does the same up to the first row on which the predicate, given the value so far, is false, and returns the value so far.", "quantifier": "every table, seed, accumulator and predicate", "why_tests_cant": "unbounded number of rows; expressions share a column cache", "anchors": ["ogma/src/lang/impls/intrinsics/morphism.rs: fold_intrinsic, fold_while_intrinsic"]}
{"id": "C60", "title": "The meaning of a name is not revised during compilation", "statement": "Once the compiler has been told what a name in some argument refers to (or that it refers to nothing), variables discovered later do not change that answer.", "quantifier": "every syntax tree and every order of discovery", "why_tests_cant": "the order in which variables are discovered depends on types and on the iteration order of hash maps", "anchors": ["ogma/src/eng/graphs/locals_graph.rs: get, sealed, init_edges", "ogma/src/eng/blk.rs: assert_adds_vars, inject_manual_var_into_arg_locals", "ogma/src/lang/impls/intrinsics/morphism.rs: fold_while_table_intrinsic"]}
{"id": "C61", "title": "Expanded programs are the written programs", "statement": "Compiling an expression lays it out exactly as written: every block in order, every operation with its flags and arguments in order, every nested expression; each use of a command has below it exactly the body of its definition; and each implementation receives all arguments and flags of the call in the order written.", "quantifier": "every expression and every set of definitions", "why_tests_cant": "expressions nest without bound and definitions multiply them", "anchors": ["ogma/src/eng/graphs/astgraph.rs: flatten_expr, expand_def, get_terms, get_args, get_flags"]}
{"id": "C62", "title": "The implementation for the input type is the one that runs", "statement": "A command called on a value of some type uses the implementation for exactly that type if there is one that may be used there; otherwise the one for all types; otherwise there is an error. It never uses an implementation for another type or of another command.", "quantifier": "every expression, set of definitions, call and input type", "why_tests_cant": "definitions overlay each other in any combination", "anchors": ["ogma/src/eng/graphs/astgraph.rs: get_impl, expand_def, RecursionDetector"]}
{"id": "C63", "title": "Error messages show the offending text and mark it", "statement": "An error about a piece of the source shows exactly the lines that piece touches. Below a piece within one line there are as many marks as the piece is wide, starting below its first character; tabs count for four columns. An error at the end of the input is marked in the column after the last line. Printing an error never fails for a piece that starts and ends between characters.", "quantifier": "every source text, in any mixture of line endings and of characters of any width, and every piece of it", "why_tests_cant": "the line and column arithmetic mixes bytes, characters and display columns; texts are unbounded", "anchors": ["ogma/src/common/err.rs: trace_code_lines, Trace::print", "ogma/src/lang/syntax/parse/mod.rs: convert_parse_error"]}
{"id": "C64", "title": "The language server's copy of a document is the editor's text", "statement": "After the editor has sent its edits, in messages that may arrive in any order, the server's copy of the document is exactly the editor's text: every edit replaces exactly the range the editor meant, whatever the line endings and the width of the characters. A position past the end of a line is the end of that line, one below the last line is the end of the text.", "quantifier": "every text, every sequence of batches of edits and every order of arrival", "why_tests_cant": "positions count lines and UTF-16 units while the text is stored as UTF-8 with two kinds of line endings; sequences of edits are unbounded", "anchors": ["ogma-ls/lib.rs: linech_to_idx, pos_to_idx, lsp_range_to_range", "ogma-ls/workspace.rs: apply_changes, File::add_changes, File::apply_pending"]}
{"id": "C65", "title": "Completion and hover look at the definition around the cursor", "statement": "For a cursor anywhere in a document, the text that is parsed is the definition around it, from after the previous blank line and the leading comment lines, and the place that is looked up is exactly the place of the cursor; completions are looked up for the text from the start of the definition up to the cursor.", "quantifier": "every document, cursor position, mixture of line endings and width of characters", "why_tests_cant": "the cursor is given in UTF-16 units of a line of the whole document and is used as a byte position in a text that was cut out and joined again", "anchors": ["ogma-ls/workspace.rs: get_def_text", "ogma-ls/server/completion.rs: get_completions", "ogma-ls/server/hover.rs: get_hover"]}
{"id": "C66", "title": "Completion of the word being typed never crashes", "statement": "Path completions are looked up for the word being typed: all from an open quote on if there is one, otherwise what follows the last space. Asking for completions never crashes.", "quantifier": "every input typed so far", "why_tests_cant": "inputs are arbitrary prefixes of programs", "anchors": ["ogma-ls/completion.rs: path_component, get, incomplete_completions", "ogma/src/lang/syntax/parse/mod.rs: path"]}
{"id": "C67", "title": "Compiling a program ends", "statement": "Compiling any parsed program, whatever definitions it calls and whatever its commands ask of the compiler, comes to an end with a compiled program or an error: the compiler does not go round for ever, and trying types does not either.", "quantifier": "every program, every set of commands and definitions, every input type, every order in which expressions are visited", "why_tests_cant": "the loop goes on as long as any of seven stages reports a change, and copies of the compiler run the same loop; no finite set of programs shows that it stops", "anchors": ["ogma/src/eng/comp/mod.rs: compile", "ogma/src/eng/comp/infer.rs: test_compile_types", "ogma/src/eng/comp/params.rs: insert_available_def_locals", "ogma/src/eng/comp/resolve_tg.rs: resolve_tg"]}
{"id": "C68", "title": "A program that does not compile gives an error, not a panic", "statement": "When no block can be compiled further the compiler has an error to report; it does not panic for want of one.", "quantifier": "every program, every set of commands and definitions, every input type", "why_tests_cant": "whether there is an error depends on the whole history of the compiler, and on which copy of it is running", "anchors": ["ogma/src/eng/comp/mod.rs: compile_blocks", "ogma/src/eng/comp/infer.rs: test_compile_types"]}
{"id": "C69", "title": "The inference limit does not depend on the length of a program", "statement": "Types are tried at most five deep, and a program whose parts compile is not refused for the inference depth because it has many parts.", "quantifier": "every program, every set of commands and definitions", "why_tests_cant": "how deep the compiler is depends on the trials that were adopted before", "anchors": ["ogma/src/eng/comp/infer.rs: assert_inference_depth, test_compile_types"]}
{"id": "C70", "title": "Compiled programs fit together", "statement": "In a compiled program each block takes the type the block before it puts out, from the input type of the program on, also in every argument and definition that was compiled. Each step is the one its command accepted for that type, and a call of a definition has the output type of the definition's expression.", "quantifier": "every program, every set of commands and definitions, every input type, every sequence of inferred types", "why_tests_cant": "steps are compiled in different rounds and copies, with types that were guessed, obliged or flowed", "anchors": ["ogma/src/eng/comp/mod.rs: compile, compile_block, populate_compiled_expressions, Stack::build"]}
{"id": "C71", "title": "An argument expression is compiled for the input it is given", "statement": "When a built-in command gives an argument an input type and evaluates it, the argument expression was compiled for exactly that input type and puts out the type the command expects, also when the argument reaches the command through an expression parameter of a definition.", "quantifier": "every program, every set of commands and definitions, every input type, every sequence of inferred types", "why_tests_cant": "the types of an argument are settled in different rounds, and a parameter may stand for an expression written elsewhere", "anchors": ["ogma/src/eng/arg.rs: supplied, returns, concrete", "ogma/src/eng/blk.rs: next_arg", "ogma/src/eng/comp/locals_graph.rs"]}
{"id": "C72", "title": "A call of a definition gives each parameter a value of its declared type", "statement": "In a compiled program a call of a definition has as many arguments as the definition has parameters; each argument for a parameter that is not an expression can be evaluated on the input of the call, and has the declared type if the parameter declares one.", "quantifier": "every program, every set of commands and definitions, every input type, every sequence of inferred types", "why_tests_cant": "the definition and its arguments are compiled in different rounds; the definition may be finished before its parameters are looked at", "anchors": ["ogma/src/eng/comp/params.rs: map_def_params_into_variables, map_callsite_param", "ogma/src/eng/comp/mod.rs: compile_block, map_callsite_params_for_def_step", "ogma/src/eng/graphs/locals_graph.rs: sealed"]}
{"id": "C73", "title": "Every position attached to parsed input is the place it was read from", "statement": "Each part of a parsed line (operation, argument, flag, variable, literal, type, parameter, field) carries a byte range; the text of the line in that range is the text of the part. The ranges of the parts of a block, a field access or an expression lie inside its own range, one after the other, and no two leaves of the whole line overlap.", "quantifier": "every line of any Unicode text that parses, every set of known commands", "why_tests_cant": "each parser computes the range from a different offset, and some move it by the length of a quote, a brace or a dollar sign; multi-byte characters make byte and character offsets differ", "anchors": ["ogma/src/lang/syntax/parse/mod.rs: parse, Line::create_tag, op_ident, arg, dot_op, expr, block, definition_impl, definition_type", "ogma/src/lang/syntax/ast.rs: Tag, PrefixBlock::block_tag, Argument::tag"]}
{"id": "C74", "title": "Highlighting shows the line that was typed", "statement": "The shell's highlighted line has the same characters as the typed one, and each part of a parsed line is coloured by its kind, together with exactly the dollar sign, dashes and quotes that belong to it. Highlighting never stops the shell.", "quantifier": "every typed line", "why_tests_cant": "the highlighter slices the line at ranges made by the parser and widened by looking at single characters; a wrong range loses text or panics only on particular characters", "anchors": ["ogma-shell/lib.rs: syntax_highlight, highlight_from_nodes", "ogma-ls/completion.rs: append_leaves"]}
{"id": "C75", "title": "The editor finds the part of the input at a position", "statement": "In a line which uses no path as a command, the part found for a position is the one whose byte range has the position; if the position is in none, nothing is found (except the word `def`, also found at the space after it).", "quantifier": "every line that parses, every position", "why_tests_cant": "the search descends only into expressions, blocks and arguments whose own range has the position, so it depends on every range being around those of its parts", "anchors": ["ogma-ls/completion.rs: node_at_pos", "ogma-ls/server/hover.rs: get_hover"]}
{"id": "C76", "title": "A program that compiles evaluates without panicking", "statement": "If a program compiles, evaluating it on a value of its input type ends in an error of one of its commands or with a value of its output type. On the way no variable is read before it was set or set to a value of another type, every variable has its place in the environment, and every value handed to or returned by an argument, a block, a definition or an expression has the type it was compiled for.", "quantifier": "every program, every input value of its type, every environment that holds the variables the program was given, every outcome of the commands", "why_tests_cant": "where a variable lives is decided while blocks are tried in an order that depends on what types are known, in several compilers of which only one is adopted; a slot that is not set, or set by the wrong block, shows only for programs that get there", "anchors": ["ogma/src/eng/eval.rs: eval", "ogma/src/eng/step.rs: invoke, def", "ogma/src/eng/arg.rs: resolve, concrete", "ogma/src/eng/var.rs: fetch, set_data", "ogma/src/eng/blk.rs: create_var_ref, inject_manual_var_next_arg"]}
{"id": "C77", "title": "From the text of a program to its value", "statement": "If a program that is read from text, with definitions that are read from text, is expanded without an error, the compiler starts on it without a panic, or reports that an annotated type contradicts what is known; compiling ends; if it succeeds, the blocks that are written take an input of the given type to an output, in the order written; and if the modelled commands are used, evaluating it on any value of the input type ends with an error or a value of the output type.", "quantifier": "every text that parses and expands (a command that is written as a path does not), every set of definitions that were read from text, every input type and value, every set of annotated types and seeded variables, every order in which the compiler visits expressions", "why_tests_cant": "each stage relies on what the stages before it ensure (blocks in every expression, parameters of different names, one parent for each node, one call for each expanded body); a test takes one program through all of them and cannot show that no program breaks the agreement between them", "anchors": ["ogma/src/lang/syntax/parse/mod.rs: expression, definition_impl, def_params", "ogma/src/lang/syntax/ast.rs: parts, is_op", "ogma/src/eng/graphs/astgraph.rs: init, flatten_expr, op_args, get_args, parent", "ogma/src/eng/graphs/tygraph.rs: build, add_constraints", "ogma/src/eng/comp/mod.rs: compile_with_seed_vars, init_tg"]}
{"id": "C78", "title": "Annotated types are honoured", "statement": "If a program with annotated types is compiled without an error, every block whose input or output type is annotated is compiled for exactly that type, and every expression with an annotated type puts out a value of that type, wherever it is written: in the program, in an argument, or in the body of a definition that it uses. If the first block's input is annotated, the program is compiled for no other input type; if the last block's output is annotated, the program's output type is that type. Annotations never make the compiler panic.", "quantifier": "every program with any types annotated at any of its blocks and expressions, every set of definitions, every input type, every order in which the compiler visits expressions", "why_tests_cant": "an annotation is collected while the syntax graph is built, applied when compiling starts, and has to survive every later inference, narrowing and trial; a test shows that some programs with annotations compile to the right types, not that no annotation is lost or overruled in any program", "anchors": ["ogma/src/eng/graphs/astgraph.rs: init, flatten_expr, expand_def", "ogma/src/eng/comp/mod.rs: compile_with_seed_vars", "ogma/src/eng/graphs/tygraph.rs: apply_chg", "ogma/src/lang/syntax/parse/mod.rs: block, arg, opt_ty"]}
{"id": "C79", "title": "Progress reports of a batch tell the truth", "statement": "While a batch is processed, one progress report is sent for each item that is processed, and none for others. Whatever the schedule of the worker threads, there is an order of the processed items such that the first report shows the outcome of the first, the second those of the first two, and so on, with everything else shown as outstanding; the last report shows the outcomes that are returned, except that items that were cancelled are shown as outstanding. Reporting never holds up or changes the processing.", "quantifier": "every batch, with or without parallel and fail-fast, every schedule of the worker threads, every moment of a cancellation", "why_tests_cant": "reports are collected from threads through a shared list of statuses; a lost, doubled or reordered update shows only under some schedules, which a test cannot force or enumerate", "anchors": ["ogma/src/rt/bat.rs: process, report_progress, BatchProgress, OutcomeProgress"]}
{"id": "C80", "title": "Exit status of the command line", "statement": "Given files to process, the program exits with status 0 exactly if all goes well: every pattern for definitions and files is well formed and names at least one readable file, all definition files load in order, all batch files parse, and every item of every file succeeds with the definitions that apply to it. It ends in a panic if anything is wrong before the first item is processed, and then nothing is processed; it exits with status 1 if an item of some file fails, and then no later file is processed. Each file is processed once, in the order of paths, however many patterns name it. The status does not depend on how threads are scheduled.", "quantifier": "every list of patterns, every state of the file system, every contents of the files, every schedule of the worker threads", "why_tests_cant": "a script relies on the status for all combinations of patterns, files and outcomes and for all schedules; tests run a few", "anchors": ["bin/main.rs: main, expand_globs, process_files, process_and_print_batch", "ogma/src/rt/bat.rs: process"]}
{"id": "C81", "title": "Programs that compile run without type confusion", "statement": "After any session of definitions, if the text of a program is parsed, expanded and compiled without an error, then evaluating it on any well-formed value of its input type ends, in an error that is reported or in a well-formed value of the type that the compiler found for its output. None of the built-in commands, nor the constructors of defined types, ever finds a value of another type than it asked for, reads a variable that is not set, or meets a table cell, a row or a field that is not of the announced type.", "quantifier": "every session of type and command definitions, every text, every input value, all 75 built-in commands with all their flags, every behaviour of the file system, of numbers and of comparison, every order in which the compiler visits expressions", "why_tests_cant": "the commands announce types to the compiler while it is still inferring, and rely on the announcements only when evaluated; that no combination of commands, flags, nestings, variables and definitions breaks an announcement is a statement about all programs", "anchors": ["ogma/src/lang/impls/intrinsics/mod.rs, arithmetic.rs, cmp.rs, diagnostics.rs, io.rs, logic.rs, morphism.rs, pipeline.rs: the *_intrinsic functions", "ogma/src/lang/impls/mod.rs: add_typedef_init_impls, typedef_init", "ogma/src/eng/blk.rs: eval, finalise, get_flag, create_var_ref, inject_manual_var_next_arg", "ogma/src/eng/arg.rs: supplied, returns, concrete, resolve"]}
{"id": "C82", "title": "Help shows everything about a command", "statement": "Asking for help with the flag `--help` on the first command of a request shows help instead of compiling and running the request. Help exists for every command that is stored, after any history of definitions, and building it does not panic. It shows, for every implementation of the command, the type of its input, its whole description, its usage with all parameters in order, all its flags and all its examples. The shell colours the help, and apart from the colours it shows the same text.", "quantifier": "every history of definitions, loads and clears, every number and order of implementations, every description, parameter, flag and example (within lines and without terminal escapes), every request", "why_tests_cant": "the help text is assembled from pieces of any number and form and then taken apart again line by line by the highlighter, which keeps a state; the existing test looks at one command", "anchors": ["ogma/src/common/err.rs: help_as_error, Error::print, Trace::print", "ogma/src/lang/impls/mod.rs: get_help_all, usr_impl_help, typedef_init_help", "ogma/src/lang/help.rs: HelpParameter::write", "ogma/src/rt/process.rs: handle_help, process_expression", "ogma-shell/lib.rs: write_err, highlight_help", "ogma-ls/workspace.rs: impls"]}
{"id": "C83", "title": "Parse errors and completions say true things about the text", "statement": "A text is either read or refused with an error that names at least one place. Every place is a piece of the text, and it is empty only at the end of the text; so the error can be shown with its marks without a panic, and the marks are at that piece. What is said to be expected fits the place: a type only behind a colon or in a definition, a special literal only behind `#`, a path only behind a slash at the end. Asking for completions at the end of a line gives completions or nothing, but does not crash.", "quantifier": "every text, every set of known commands, every classification of letters", "why_tests_cant": "errors are put together by nested parsers, each adding places and expectations; the tests look at the errors of some texts and the completions of a few lines", "anchors": ["ogma/src/lang/syntax/parse/mod.rs: ParsingError, exp, maybe_cx, opt_ty, path, arg, no_trailing_input, def_params, convert_parse_error", "ogma-ls/completion.rs: get, complete_completions, incomplete_completions"]}
{"id": "C84", "title": "What is typed is what is defined", "statement": "Whatever lines are entered and whatever files or documents are loaded, the stored commands and types are those of a sequence of definitions each of which stands in one of the lines or files, in that order. A line that is a definition, uses defined commands and known types, and is not in the place of a built-in command, is stored under its name and input type exactly as typed, replaces what was there, and changes nothing else. A line that is not accepted changes nothing. A line that is no definition changes nothing. What is built in stays, and clearing gives exactly that back.", "quantifier": "every sequence of lines, of definition files with their contents, and of documents of the language server; every classification of letters; every state reached", "why_tests_cant": "lines are told apart by phrases looked for anywhere in them, files are split into items and types come before commands, and errors stop a file half way; what remains of a session depends on the whole history, and on text no test thinks of", "anchors": ["ogma-shell/lib.rs: on_enter, load_defs_files", "ogma/src/lang/defs.rs: Definitions::new, add_from_file, add_from_str, recognise_definition, process_definition, process_impl, process_ty, assert_all_ops_defined, add_derived_impl", "ogma/src/lang/syntax/parse/file.rs: file", "ogma-ls/workspace.rs: def_load"]}
{"id": "C85", "title": "The list of definitions is complete and true", "statement": "`def --list` shows a table with one row for every implementation of a command that is stored, built in or defined, and no others. A row has the name, the input type, the place it was defined, the line of the file, and the text as it was typed without the word `def`. The rows are in order by name, and for one name the implementation for any input comes first and the others follow by the type of input. The table depends on what is defined and on nothing else: it is the same each time, and after clearing it is that of the start.", "quantifier": "every sequence of lines, definition files and documents; every order of the hash maps; every implementation of sorting that keeps the documented contract", "why_tests_cant": "the tests list a few definitions in one order of the maps and with one version of the standard library; that nothing is missing, that `[4..]` always cuts off `def ` and does not panic, and that two sorts one after the other give one order, are claims about all histories and all orders", "anchors": ["ogma/src/lang/defs.rs: construct_def_table, process_impl (--list)", "ogma/src/lang/impls/mod.rs: Keys::iter, Implementations::iter, iter_op", "ogma/src/lang/syntax/ast.rs: Location (Display)"]}
{"id": "C86", "title": "The shell comes back, and shows what the line gives", "statement": "After a line is entered the shell waits until it is done and then takes the next. Whatever the order in which its threads run, at the prompt one thing has been shown for each line, in order; what is shown, and the definitions there are, are those of doing one line after the other. A line shows nothing only if it was aborted with Ctrl+x while it was being done; an aborted line leaves the definitions as they were, and what it still computes has no effect on what is shown later. The definitions are never changed while something is evaluated with them. The prompt always comes back: when the line is done, and also after Ctrl+x.", "quantifier": "every sequence of lines and of times at which Ctrl+x is pressed, every schedule of the threads, every outcome of the lines (output, panic, no end)", "why_tests_cant": "the tests run one line at a time and wait for it; lost results, stale definitions and threads that wait for each other occur under some schedules only, and that there is no way to wait for ever is a claim about infinite runs", "anchors": ["ogma-shell/interface/mod.rs: eval, events_cycle, input_text", "ogma-shell/lib.rs: on_enter, process_seq, process_expr, process_batch, load_defs_files, write_err, highlight_help, syntax_highlight", "ogma-ls/workspace.rs: Workspace (defs), parse"]}
{"id": "C87", "title": "Completion offers what can be written, and hovering explains what is written", "statement": "While a command is typed, first in a line or behind a pipe, completion offers every command that is defined exactly once, with its name and its help, and nothing else; where a type is expected it offers every type exactly once. What is offered can be typed: the name of each command is read as that command, alone, behind a pipe and with the name of each type behind it, also those defined by the user in the session. The shell lists those that start with the word at the cursor: all of them as long as there are not more than ten. Looking these up never panics, whatever was defined, loaded or cleared before. Hovering over a part of a text shows that part, its kind, and its help if it is a defined command or type; between parts, and in a text that cannot be read, nothing is shown.", "quantifier": "every history of definitions, every order of the hash maps, every line of commands and every name typed behind it, every position of the cursor", "why_tests_cant": "the tests check a few lines with the initial definitions and sort what is offered; that nothing is lost or doubled in any order, and that any name a user can define is read back when it is completed, is a claim about all histories", "anchors": ["ogma-ls/completion.rs: get, complete_completions, incomplete_completions, cmpls, spec_literal_completions", "ogma-ls/workspace.rs: impls, types, impl_help_string, type_help_string, doc_header, add_doc_body", "ogma-ls/server/hover.rs: get_hover", "ogma-shell/lib.rs: complete", "ogma-shell/interface/completions.rs: request, loop_completer"]}
{"id": "C88", "title": "typify shows its argument as written, with the types that were settled", "statement": "`typify` shows the argument it is given as it is written: the commands of an expression in their order with their arguments in their order, also in nested expressions, each with the type of its input; with `--verbose` also with the type of its output and of literals. The types are those the compiler knows; where it does not know one, a question mark stands for it, and the arguments of a command are left out only if the type of its input is not known or it has no implementation for it. An expression that is given to `typify` has been compiled, so the types of the inputs and outputs of its own commands are settled and their arguments are shown. Showing types never panics and always ends, whatever is known. What is shown without the types is the argument without its flags.", "quantifier": "every program and every set of definitions it uses, every argument in it, every state of the knowledge about types, verbose or not", "why_tests_cant": "the tests show three expressions; that the walk over the graph shows each command and argument once, in order, for any nesting and any number of commands, and meets none of the nodes it cannot show, is a claim about all programs", "anchors": ["ogma/src/eng/annotate.rs: types, fmt, fmt_op, fmt_ty, Display", "ogma/src/lang/impls/intrinsics/diagnostics.rs: typify_intrinsic", "ogma/src/eng/graphs/astgraph.rs: first_op, next, get_impl, get_args"]}
{"id": "C89", "title": "What is shown for a result tells what the result is", "statement": "Every result that is not an error is shown: numbers, text and tables themselves, and data of a defined type as a tree. The tree has the name of the variant, or of the type if it has fields only, and under the name of each field what is shown for the value that reading this field gives, in the order of the names, also in nested data; nothing is left out and nothing else is shown. The same tree is shown in cells of tables. Two values of one type that are shown alike are the same but for what is in tables. The program panics only if a name of a type or variant is one that trees do not take.", "quantifier": "every set of definitions of types, every value whose fields are as its type says (which C81 says of every result), at any depth of nesting, every set of names that trees take", "why_tests_cant": "values of a type can be nested to any depth, and names of fields and variants are chosen by the user; the tests print two records", "anchors": ["ogma-shell/lib.rs: write_result", "ogma/src/lang/types.rs: into_kserd, add_kserd_fields", "ogma/src/output/print.rs: fmt_cell, print_ogma_data"]}
{"id": "C90", "title": "`run` in the shell processes the named file and reports every item", "statement": "A line `run PATH`, with the flags `--no-par` and `--no-fast-fail` behind the path in any order and number, processes the file of that path in the working directory as the file says, except that with `--no-par` the expressions are evaluated one after the other and with `--no-fast-fail` all items are processed. The report has one line for each item, in the order of the batch, with its line in the file, its kind and its outcome; after these each error of an item that failed, in the same order, and nothing else. Each outcome is the true one, or the item is reported as outstanding, which is so only if the file asks to stop at the first failure, the flag was not given, and some item failed. No item is ever reported as cancelled.", "quantifier": "every path that does not have the text of a flag in it, every sequence of flags, every file, every behaviour of the language on the items, every schedule of the worker threads", "why_tests_cant": "there is no test of `run`; the flags are searched anywhere in the line, and the report depends on the outcomes under every schedule", "anchors": ["ogma-shell/lib.rs: parse_batch, process_batch, on_enter", "ogma/src/rt/bat.rs: parse_file, process"]}
{"id": "C91", "title": "A name in a program is the variable nearest to it, whatever the compiler found out first", "statement": "In a program that compiled, each name used as an argument stands for the variable of that name at the nearest place going outwards: the argument itself, its block, the blocks before it, the enclosing expression and so on up to the body of a definition (which sees its parameters only) or the root (which has the variables given with the program). All variables of the whole program count: none is missed because it became known later than others. Away from the root a name is defined at most once at each place. Each variable is given with the program, or asked for by a command for its next block or one of its arguments, or a parameter; commands set exactly the variables they asked for, and calls set each parameter to the argument at its position.", "quantifier": "every session of definitions, every program text (without `fold-while`), every order in which the compiler goes through its work, every annotation of types", "why_tests_cant": "which variables are known when a name is resolved depends on the order in which types are inferred and blocks compiled, which differs with each program and with the iteration order of hash maps", "anchors": ["ogma/src/eng/comp/mod.rs: Compiler::compile, compile_blocks", "ogma/src/eng/comp/params.rs: map_def_params_into_variables", "ogma/src/eng/graphs/locals_graph.rs: get, new_var, sealed", "ogma/src/eng/blk.rs: assert_adds_vars, assert_vars_added, create_var_ref, inject_manual_var_next_arg", "ogma/src/eng/arg.rs: map_astnode_into_hold", "ogma/src/lang/impls/intrinsics/morphism.rs: fold_while_table_intrinsic"]}
{"id": "C92", "title": "A compiled program evaluates to what its text says", "statement": "If a program compiles, evaluating it makes the value, or ends in the error, that one gets by evaluating the program as it is written, with the values of variables kept by name: a block is evaluated by the command there is for the type of its input and its result is the input of the next; a command evaluates the expression given as an argument each time it reads it, on what it passes, with the variables of the block and those the command sets for that argument (such as `$row`); variables set for the next block (`let`) are there from then on, until the expression ends; the body of a definition is evaluated on the input of the call, with its parameters and no other variables; a variable set inside an argument or a body does not change one outside.", "quantifier": "every session of definitions, every program text (without `fold-while`), every input and variables of the right types, every order in which the compiler goes through its work", "why_tests_cant": "compiling replaces names by places in one shared environment that nested expressions and calls overwrite; whether a place still holds the right value when it is read depends on the whole program", "anchors": ["ogma/src/eng/eval.rs: Stack::eval, Step::invoke, Context", "ogma/src/eng/arg.rs: Argument::resolve", "ogma/src/eng/var.rs: Environment, Variable::set_data", "ogma/src/eng/comp/mod.rs: compile_block, map_callsite_params_for_def_step", "ogma/src/eng/step.rs: Step::def"]}
{"id": "C93", "title": "Comparing tuples and sort keys evaluates the code that is written for it", "statement": "`cmp` and `eq` of tuples, and the comparisons of `sort-by` and `grp-by`, are made by code that the commands compile for themselves. If such a command compiles, comparing two values of its type makes what evaluating the text of that code makes, with the first value as input and the second as `$rhs`, and with the definitions in force; what comes out is always an `Ord` (or a `Bool`), unless the code ends in an error, and then the command ends in one.", "quantifier": "every session of definitions, every number of elements, every type, every two well-formed values of it, every depth to which such code compiles further code, every order in which the compiler goes through its work", "why_tests_cant": "the code is generated for each type and compiled anew, in the midst of compiling a program, with the definitions of the user; a test sees a few types and definitions", "anchors": ["ogma/src/lang/impls/intrinsics/cmp.rs: cmp_intrinsic, build_tuple_cmp_code, eq_intrinsic, build_tuple_eq_code", "ogma/src/lang/impls/intrinsics/mod.rs: BinaryOp", "ogma/src/eng/eval.rs: CodeInjector"]}
{"id": "C94", "title": "The shell shows all of a text, whatever the width of the terminal", "statement": "When the shell shows a text (an output, the input line or the title), the rows on the screen are those of the lines of the text, one after the other; the rows of a line show all of its characters in order and in their colours, none left out and none twice; every line has a row, and a line break at the end is shown as an empty row. No row is wider than the terminal, and a row ends only where the next character does not fit.", "quantifier": "every text with any colours, every width of the terminal, every width of characters", "why_tests_cant": "wrapping depends on the width, on where colours change and on the widths of all characters; a character lost at one boundary is seen at few combinations of these", "anchors": ["ogma-shell/interface/mod.rs: convert_coloured_str, cnv_span"]}
{"id": "C95", "title": "The cursor and the scroll bar are where they should be", "statement": "The cursor in the input is drawn after the characters that are before it in the line, whatever rows the line takes. The scroll bar lies inside its area and always has a row; it fills the area if all lines can be seen, is at the top before scrolling and at the bottom at the last line, and goes down as one scrolls down.", "quantifier": "every input line, every position of the cursor, every width; every area, number of lines and scroll position", "why_tests_cant": "positions depend on the line, the width and the position together", "anchors": ["ogma-shell/interface/mod.rs: calculate_cursor_offset, sum_newline_chars, draw", "ogma-shell/interface/outputs.rs: scroll_location"]}
{"id": "C96", "title": "`ls` shows the directory", "statement": "`ls` gives a table with the columns name, type, size, ext and modified and one row for each entry of the directory, no more and no less, in the order of the names. The row of an entry shows its name, whether it is a file or a directory, its size, its extension and when it was modified, and empty cells for what is not known. Neither the rows nor their order depend on the order in which the system lists the entries. Times can be read off their texts, and sorting the texts sorts the times.", "quantifier": "every directory with any entries, in every order the system may list them; all times", "why_tests_cant": "the order of listing is up to the system and cannot be set by a test; rows, extensions and times range over all names and dates", "anchors": ["ogma/src/lang/impls/intrinsics/io.rs: make_dir_table, fmt_systime"]}
{"id": "C97", "title": "The parts of a benchmark add up", "statement": "`benchmark` gives a table of one row whose seconds, milliseconds and microseconds add up to the measured duration, in whole microseconds, with fewer than a thousand milliseconds and fewer than a thousand microseconds.", "quantifier": "every duration", "why_tests_cant": "a test cannot choose how long an evaluation takes", "anchors": ["ogma/src/lang/impls/intrinsics/diagnostics.rs: benchmark_table"]}
{"id": "C98", "title": "`open` gives what the file holds", "statement": "After files have changed and the change was noticed, `open` gives what the file holds now, as a table or as text, and not what it held when it was opened before.", "quantifier": "every history of opening, changes of any files, reports of changes in any order and delay, expiry of the cache, in any number of root directories", "why_tests_cant": "it is about all interleavings of opening, changing and watching; tests open a file once", "anchors": ["ogma/src/rt/fscache.rs: ensure_init, watch_fs, remove_path_changes", "ogma/src/lang/impls/intrinsics/io.rs: open_intrinsic", "ogma/src/rt/process.rs"]}
{"id": "C99", "title": "Messages about conflicting types say which type is where", "statement": "If types do not fit together, the message has a note at each of the two places of the program, and each note names the types that this place has or can have and says whether its input or its output is meant. If a type cannot be applied to a place, both notes are at this place, one naming the type to be applied, the other the types the place can have.", "quantifier": "every type graph, every edge and every conflict on it; every change that is refused", "why_tests_cant": "messages depend on what is known of both ends, on the kind of edge and on the direction the type flows", "anchors": ["ogma/src/eng/comp/resolve_tg.rs: ty_resolution_err, conflict_err", "ogma/src/eng/graphs/tygraph.rs: flow_types, can_flow"]}
{"id": "C100", "title": "Messages list what is left over, and what there is", "statement": "If a command is given flags it does not take, the message lists exactly these flags, in the order they were written, and marks each of them in the line. If it is given arguments it does not take, the message marks the smallest part of the line that has all of these and nothing more, and says whether it is one or several. If too few arguments are given to a definition, its parameters are listed as they were written; if a field does not exist, all fields of the type are listed.", "quantifier": "every command and every way it asks for its flags and arguments, every list of flags and arguments in any order; every definition and type", "why_tests_cant": "what is left over depends on the order in which a command takes things and on how they are mixed in the line", "anchors": ["ogma/src/common/err.rs: unused_flags, unused_args, insufficient_args, field_not_found", "ogma/src/eng/blk.rs: finalise", "ogma/src/eng/comp/params.rs: map_def_params_into_variables"]}
{"id": "C101", "title": "Where inference goes too deep, the message begins at the outermost place", "statement": "If trying types for an expression tries types for another one within, and so on until the limit is reached, the message has one note for each of these places, from the outermost inwards; the first says what the user can do there, the others only that trying types within failed.", "quantifier": "every chain of places, of any length, at which types are tried one within the other", "why_tests_cant": "the order of notes and what they say depend on how deep the places are nested and on what is inferred at each of them", "anchors": ["ogma/src/eng/comp/infer.rs: add_trace, input_expr, output"]}
{"id": "C102", "title": "The advice to annotate a type can be followed", "statement": "Where a type cannot be inferred, the message shows how to write it. Put into the line with any type in its place, this is read, and as the same program but with that type as the input of the expression, or as the output of the command.", "quantifier": "every expression and command in every line that is read, and every name of a type", "why_tests_cant": "the advice is made from the text of the expression, which may be any text the grammar allows", "anchors": ["ogma/src/eng/comp/infer.rs: Error::output, Error::input_expr", "ogma/src/lang/syntax/parse/mod.rs: arg, block, opt_ty"]}
{"id": "C103", "title": "The message about a missing command says what there is", "statement": "If a command gets an input it is not defined for, the message names the command and the type, and lists all types the command can take, each once and nothing else, by names the user can write; if it is not defined at all, it says how to get a list. If a definition is refused as one of its commands is missing, the first such command is named, and the user is told that recursion is not supported if and only if that command is the one being defined.", "quantifier": "every session of definitions, loads and clears; every command, every input type; every order in which the store gives the implementations", "why_tests_cant": "which types a command can take is the outcome of everything defined and cleared before, and the order comes from a hash map", "anchors": ["ogma/src/common/err.rs: op_not_found", "ogma/src/eng/comp/mod.rs: compile_block", "ogma/src/lang/defs.rs: assert_all_ops_defined", "ogma/src/lang/impls/mod.rs: iter_op"]}
{"id": "C104", "title": "Every row of the outputs can be seen", "statement": "After a line was evaluated in the shell, its result is at the top of the screen, followed by the results before it. From every state, every row of every result that is kept can be brought on the screen with the keys for scrolling, which change no result.", "quantifier": "every state of the shell, every list of results of any height, every height of the screen, every sequence of keys", "why_tests_cant": "where scrolling ends depends on the height of all results together, which is not bounded, and on the height of the screen", "anchors": ["ogma-shell/interface/outputs.rs: as_paragraph, scroll, render", "ogma-shell/interface/mod.rs: process_event"]}
{"id": "C105", "title": "What save reports is what happened to the file", "statement": "If saving reports success, the file holds exactly what was to be saved. If it reports an error or the machine stops in between, the file holds what it held before.", "quantifier": "every value, every split of its text into writes, every size of the buffer, every sequence of answers of the operating system (short writes, interruptions, errors), every point at which the machine stops", "why_tests_cant": "full disks, short writes and machines that stop are not met in unit tests, and their points are not bounded", "anchors": ["ogma/src/lang/impls/intrinsics/io.rs: save_intrinsic, mkdirs, write_file"]}
{"id": "C106", "title": "No key is lost in the shell", "statement": "Each key pressed in the shell has its effect once, and in the order of pressing, also if it is pressed while a line is evaluated. Enter evaluates the line unless the shell is left. Ctrl+x pressed after Enter and before the line is done aborts this line, and no other.", "quantifier": "every sequence of keys, every timing of them, every schedule of the threads that read keys, handle them and evaluate", "why_tests_cant": "the tests hand over all keys at once; which keys are taken in which state depends on the timing of three threads", "anchors": ["ogma-shell/interface/events.rs: Events", "ogma-shell/interface/mod.rs: events_cycle, eval"]}
{"id": "C107", "title": "Items of a batch that save files do not disturb each other", "statement": "If the expressions of a batch are evaluated at the same time and save files, each file holds at the end what one of them saved to it: the last thing saved by an item that saves to it.", "quantifier": "every number of items, every sequence of saves in each, every split of the contents into writes, every order of the calls of the operating system", "why_tests_cant": "the order of calls differs from run to run, and mixtures occur for few of them", "anchors": ["ogma/src/rt/bat.rs: process", "ogma/src/lang/impls/intrinsics/io.rs: save_intrinsic, write_file"]}
{"id": "C108", "title": "What was saved is what open gives", "statement": "After a program saved a file, opening this file gives what was saved.", "quantifier": "every history of opening, saving and changing files, of events and turns of the watcher and of expiry before it, every file, contents and type", "why_tests_cant": "whether an old copy is in the cache, and whether the watcher was there in time, depends on everything before and on timing", "anchors": ["ogma/src/lang/impls/intrinsics/io.rs: save_intrinsic, open_intrinsic", "ogma/src/rt/fscache.rs: get, insert, watch_fs"]}
{"id": "C109", "title": "A path means the same place for open, save and ls", "statement": "In each tab and after any changes of directory: the file that `open` reads, the file that `save` writes and the file or directory that `ls` lists are at the same place if the same path is given. `ls` without a path lists the working directory of the tab.", "quantifier": "every path, every sequence of changes of directory in any tabs, every file system with links, every root", "why_tests_cant": "the three commands compute the place in three different ways; whether these agree depends on the root, on the directory of the process, on links and on the directories visited before", "anchors": ["ogma/src/lang/impls/intrinsics/io.rs: scrub_filepath, ls_intrinsic, save_intrinsic, open_intrinsic", "ogma-shell/lib.rs: handle_cd, validate_path, tab_wd"]}
{"id": "C110", "title": "The language server answers each request once, and its documents are the editor's", "statement": "Whatever an editor sends to the language server, and in whatever order the server's threads carry it out: each request the server announced is answered exactly once, under its number; the answer is the result for a workspace the server had in the meantime, or an error if the parameters are not those of the request. After an editor opened a document and edited it, and when nothing is left to do, the server's document is the editor's. The definitions it uses are always those of all documents as they were at one time, and after a document was opened or saved those of the documents as they are.", "quantifier": "every sequence of messages, every order in which the pool of threads carries them out, every workspace", "why_tests_cant": "every message is carried out by its own task of a pool; which order results in is a matter of the schedule", "anchors": ["ogma-ls/server/mod.rs: Server::run, handle_req, handle_notification, RpcRequest::call", "ogma-ls/server/initialize.rs: Initialize", "ogma-ls/server/file_mgmt.rs: DocChanges", "ogma-ls/workspace.rs: add_file, add_file_changes, def_load"]}
