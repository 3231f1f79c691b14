# Design

Machine-checked Lean 4 model of kdr-aus/ogma (Rust, read as text from /repo) and proofs of the
properties in `properties.jsonl`.

## Layout

- `lean/Verif/Model/*.lean` — the model: total, computable functions, one file per area. Every
  definition cites the file and lines it models and says where it simplifies.
- `lean/Verif/Spec/*.lean` — small specifications written without looking at the model's helpers.
- `lean/Verif/Lemmas/*.lean` — helper lemmas.
- `lean/Verif/Props/*.lean` — the property theorems, each with a non-vacuity `example` beside it.
- `MANIFEST.json` — property → theorem names. `seeded/LOG.jsonl` — mutation log.

## Trusted base

- Lean's kernel, and the axioms `propext`, `Classical.choice`, `Quot.sound` (at most).
- The reading of the Rust source into the model (no code is run).
- External crates, modelled by their documented behaviour or as parameters: `table` (a grid of
  cells, `add_row`/`add_rows`/`retain`…), `petgraph`, `rayon`, `notify`, `nom`, `kserd`, `numfmt`,
  glob matching, path canonicalisation. The `nom` 7.1.1 combinators in use are defined in
  `Model/Nom.lean`; Unicode letter and digit classes are parameters. Each use is named in the comment of the definition.
- Partitions: `globset` is a parameter (pattern to optional predicate), the visiting order of the export
  `HashMap` is any permutation, ids are unbounded naturals (`u32` in the code). Reading the directory tree
  (`build_fs_map`) and suggestions in error texts are not modelled.
- Tables (`Model/Table.lean`, `Model/Morph.lean`): the operations of the `table` crate follow its use and the
  command tests: short rows and columns are padded with nil, `sort` is stable and keeps the header,
  `reverse_rows` keeps the header, a table without columns has no rows, `col_mut` is `None` past the last
  column. `print::fmt_cell` and the comparison of numbers are parameters. A `rayon` run is a schedule: a list
  of (worker, row) in which every data row occurs once. Which pairs `sort-by` compares is the parameter `probe`.
  Row expressions are trees of reads by column name; everything else they do is in the choice of the tree.
- Operators (`Model/Ops.lean`): an argument is its outcome, since arguments are evaluated with the input and variables of
  the block and cannot change them (C30). That operands of one type are required is the compiler's doing; a mixed
  comparison is `none`. Strings compare by code points.
- Blocks (`Model/Blk.lean`): a built-in command is any tree of requests to its block. `petgraph` yields edges in reverse
  order of addition. What the compiler knows of an argument is a parameter.
- Inference (`Model/Infer.lean`): what compiling with one candidate gives is a parameter; every trial starts from a copy
  of the same compiler. The order of candidates and of nodes (`FxHashSet`) is any order.
- Files and paths (`Model/Io.lean`): a path is its list of components on Unix; a link leads to a link-free path in one
  step; `canonicalize` and the kernel resolve paths by `resolve`. Lower-casing, file contents and the change
  notifications of `notify` are parameters or arbitrary events.
- Printing and saving (`Model/Print.lean`): the text of a cell, `comfy_table` and the class of characters that
  `escape_debug` writes as a number are parameters. Whether `table::parse_dsv` reads saved files back is not modelled.
- Local variables (`Model/Locals.lean`): a node of the syntax graph is the way to it from the root; the indices of locals
  are unbounded. `sealed` asks along the edges depth-first with a bound instead of breadth-first.
- Evaluation (`Model/Step.lean`): what a built-in command does once compiled is a small program (`Prog`) that resolves
  arguments, sets the variables it declared, acts on an abstract world and returns or fails; the closures themselves are not
  modelled one by one. Definitions are taken as expanded at each call. The code injector of `filter`/`map` (`eval.rs`), which
  runs blocks over an environment of its own, is part of the world action.
- Type graph (`Model/TyGraph.lean`): types are an abstract set with decidable equality; a set of types is a list; nodes
  always exist; edges keep their index because none is removed once resolution has begun. How the compiler chooses its
  changes is not modelled: theorems hold for every sequence of resolutions, changes and reductions.
- Syntax graph (`Model/Expand.lean`): petgraph's `edges` lists the newest edge first; `all_simple_paths` from the root to a
  node finds every path (edges only lead to newer nodes, so all paths are simple); text positions and the collected type
  annotations are left out, only that an annotated type exists is checked.
- Parser (`Model/Parse.lean`): nom's combinators as written in `Model/Nom.lean`; positions of the parts (see the next item) and the
  texts of error messages are left out; the Unicode classes, `Number::from_str` and the defined commands are parameters, of which only
  `Laws` is used (letters are alphanumeric, the punctuation of the grammar is not, no number starts with a quote).
- Positions (`Model/Tags.lean`): the same parser with the positions it makes, the editor's search at a position and the shell's
  colouring. The line a position belongs to and its file are left out; a colour is the kind of the part. `node_at_pos` and
  `append_leaves` panic on a command given by a path; the model only says whether the input has one (`usesPath`).
- Error traces (`Model/Trace.lean`): the written text without colours; `char::is_whitespace` and the writing of numbers are
  parameters. The positions the compiler and the parser put into an error are not modelled: the theorems take any span
  between characters, and for the parser a non-empty slice or the end of the text.
- Language server texts (`Model/LsText.lean`): the transport, the lists of completions and the lookup of files are left out;
  `char::is_whitespace` and the letter classes are parameters. For `get` only inputs that start with a command are
  modelled, and what happens after the first command is a parameter.
- Compiling (`Model/Comp.lean`): the built-in commands are a parameter: what each of them calls of its block, and how it
  ends, may depend on anything in the compiler. The order in which a hash set of expressions is visited is a parameter too.
  The nodes of implementations have made-up places in the graph of locals. Left out: tags and messages; that `Tuple` can still
  fail once it has asked for an anonymous type; code injection (`CodeInjector`), which compiles a separate program. C67,
  C68 and C70 to C72 assume a well formed syntax graph
  (`Ast.Wf`) and a compiler as `init_tg` leaves it (`Start`); both are shown to be met by the examples.
- Evaluating (`Model/Eval.lean`): the closure of a built-in command is a parameter, a tree of what it does: evaluate one of
  its arguments on a value, set one of its variables, end. Arguments evaluated in parallel are evaluated in turn; each gets a
  copy of the environment, so the order does not matter. Debug assertions are checks that get stuck. `Model/Cmds.lean` has
  nine commands (`ls`, `\`, `len`, `+`, `if`, `let`, `fold`, `fold-while`, `filter`) as they are compiled and evaluated;
  their values are simplified (integers for numbers, a table is its number of rows). Replacing code (`CodeInjector`) is not
  modelled.
- From text to the compiler (`Model/Read.lean`, `Model/Prog.lean`): what the compiler reads of the syntax graph and how its type graph
  and locals start are computed from the expanded program; the types named by annotations are found by a parameter. In
  `Model/Prog.lean` which annotations a program has is a parameter (`notes`); `Model/Notes.lean` collects them while it is expanded.
  Positions are left out.
- Progress reports (`Model/Progress.lean`): the channel they are sent on (`divvy::ProgressTx`) is the list of what was sent; the shared
  list of statuses is updated in one step, as under its lock.
- The command line (`Model/Cli.lean`): `glob`, the loading of definition files, the parsing of batch files and the order of paths
  are parameters; of the order only that it is total is assumed. Nobody cancels, since the progress is a dummy. What is printed
  and the status of the shell are not modelled.
- The built-in commands as programs of the compiler and at run time (`Model/Talk.lean`, `Model/Lang.lean`, `Model/LangProg.lean`): numbers and
  their arithmetic, formatting, `print::fmt_cell`, the file system, random numbers, the clock, `eng::annotate_types` and which tables
  are shared are functions that are parameters, so that asking twice gives the same; tables that come from outside are
  assumed to be well-formed. The code that is compiled inside of a command (`BinaryOp`, and `CodeInjector` for tuples) is a
  parameter that says whether it compiles and what it gives. C93 gives that parameter: the code compiled by the same compiler (`Model/Inject.lean`),
  one level after another; which nameless types are known at that moment stays a parameter, and the argument of `cmp` and `eq` is
  taken to have been evaluated first. Rows are evaluated one after the other, and the first error ends
  the command; rayon's order is not modelled here. All errors are alike, and a command's own panics (the subject of C15 to C24
  and of the findings) count as errors; what is proved is about the types, the variables and the checks of the evaluator.
- The screen of the shell (`Model/Wrap.lean`): the crates `cansi` (lines and slices), `unicode_width` (columns of a character) and `tui` (drawing) are not modelled; of
  floating point numbers, `a / b * c` is assumed to grow with `a`, to be zero for zero, and `c` for `a = b`.
- Directories (`Model/Dir.lean`): `Path::extension` (after its documentation), `OsStr::to_str`, the crates `time` (calendar, format) and `table` (`add_row`, `sort`), and `Duration`.
- The watcher (`Model/Watch.lean`): which events the crate `notify` reports for which changes is a hypothesis of the theorem; reading and storing a file is one step (C41 has them as two).
- Notes about types (`Model/TyErr.lean`): printing of a type is a parameter; a note is at a node, the place of the node in the text is left out; the order in which a set is printed is that of the model's list.
- Messages that list things (`Model/Msg.lean`): a flag stands for its tag; places are positions in one line; that names of fields are not empty and have no blanks is a hypothesis (the grammar's `op_ident`).
- The screen of the shell (`Model/Screen.lean`): that the crate `tui` draws a paragraph from its offset on, row by row, is assumed; the heights that are kept are those of the rows drawn, a hypothesis (`Text::height`).
- Writing a file (`Model/SaveFile.lean`): `std::io::BufWriter` is modelled from its documentation and source (fill the buffer, flush if there is no room, write large pieces directly, flush again when dropped). That bytes the system took are in the file is assumed; losing them in a cache of the system is not modelled (`save` does not call `sync_all`).
- The queue of keys (`Model/Keys.lean`): the channel of crate `crossbeam` keeps the order and loses nothing (assumed). What a key asks for is a parameter that may depend on everything before (the keys themselves are C54).
- Saving at the same time (`Model/ParSave.lean`): a file is a number; that two paths are the same file (links) is not modelled. The system takes each piece at once; errors are C105.
- Places of paths (`Model/SamePath.lean`): that the system finds nothing for an empty path (`ENOENT`) is assumed; that a directory or file is there at all is not part of the claim.
- Language server (`Model/Server.lean`): reading and writing JSON, what completion and hovering give, and loading definitions are parameters; they do not panic. A task is carried out in one step, the channels stay open, and documents are never closed (there is no handler for that). Loading definitions depends on the documents only, not on the order of the map that holds them.
- Help (`Model/Help.lean`): the messages of the built-in commands are parameters; the order of the implementations is any order
  (`get_help_all` sorts them by the name of the type). Colours are taken to be switched on (crate `colored`); without them the
  highlighter finds no line to change. That a terminal leaves out escape sequences is `plain` (`Spec/Help.lean`).
- Parse errors (`Model/ParseErr.lean`): the parser of `Model/Parse.lean` again, with the errors; that both read the same is proved
  (`refused_or_read`). Offsets of pieces are taken from what follows them (`source.offset`, crate `kserd`). Which definitions, types and
  files are offered for a kind of completion is not modelled here.
- The list of definitions (`Model/Listing.lean`): `slice::sort_by` is a parameter. Assumed is what its documentation says (`Sorts`): if it
  ends nothing is lost, and for an order it ends, sorts and is stable. Some theorems assume more (`Lenient`): that it never panics, and
  that its result does not contradict the answers it was given, as was so before Rust 1.81. The category of a command is a parameter. What is
  done with the table behind ` | ` is not modelled here.
- The threads of the shell (`Model/Turns.lean`): what a line does is a parameter. Assumed of `parking_lot::RwLock`: a lock for writing is given when
  nobody has one, a lock for reading when nobody has or waits for one for writing, and a panic lets go of it. Short reads (drawing, copying the
  definitions for a batch) are one step; steps are atomic and seen at once by all threads. The thread that makes completions, which also reads for
  a short time, is not modelled. A thread that can always go on does so some time (`Fair`, a hypothesis). `donetx` is borrowed, not moved, by the
  closure of the compute thread (it has no `move` and uses it by reference), so a panic does not close the channel.
- Completion (`Model/Offer.lean`): which entries a directory has is a parameter, as is the text of help and how an error prints. Hash maps give the implementations of
  one name together, and everything in any order (`Iterates`, `Real`). That letters of ASCII are letters is assumed of the character classes (`Letters`).
  The thread of the completer and the protocol of the language server are not modelled.
- `typify` (`Model/Typify.lean`): the names of types are a parameter, as is what is known of the types; for `typify_knows` it is what the compiler of C67-C72 knows. Identifiers and
  numbers are their text without quotes, as their tags have it.
- Trees (`Model/Tree.lean`): `kserd::Kserd`, its text and the names it takes are external; the names are a parameter. Data carries the name of its type, not the definition:
- `run` (`Model/RunLine.lean`): reading the file of a path is a parameter (the check of the path is that of C43), as are the times of items; colours and layout of the report are left out.
  data of a type that was cleared and defined again is not modelled.
- `f64` arithmetic: numbers are a parameter type with an abstract comparison; theorems state the
  order laws they need (for instance "no NaN").

## Plan per property

| id | model | proof |
|---|---|---|
| C01 | whole outline parser of a file (`file.rs`), with positions | induction over lines, spec = maximal blocks of non-blank lines |
| C02 | `parseStr` | list lemmas (stable filter by kind) |
| C03 | `lineNum`, the u16 conversion panics | code is found in the text at the reported line |
| C57 | directive parsers over the `nom` combinators they use (`Model/Nom.lean`) | soundness against a grammar; write-then-read |
| C58 | doc comment handling | partial; witness for the first item |
| C04–C06 | `Impls` store as finite map name → (typed map, agnostic), ops insert/typedef/clear | invariant over op lists; constructor clash is a counterexample |
| C07 | `Types` store | invariant over op lists |
| C08 | `Tuple.name`, `Split.parse` over char lists | round-trip for separator-free leaves; counterexample otherwise |
| C09 | constructor / accessor over field lists | list lemmas |
| C10–C13 | `Partitions` as `List Node`, glob matching a parameter | invariants over `extendRoot` sequences; refinement to path semantics |
| C14 | candidate fold | induction over candidate list |
| C15–C24 | table = list of rows of cells; owned and shared branches both modelled | list algebra; counterexamples for `dedup` header, `grp` key |
| C25 | rows evaluated by a schedule (permutation of indices) | order independence of indexed writes |
| C26 | comparison of nested values, generated tuple code run by the model of `if` and `and` | mutual induction over values and lists |
| C27, C28 | evaluation with effects as a trace of evaluated arguments | induction over arguments |
| C29, C30 | compiled steps over numbered slots (`Model/Step.lean`), compilation of names to slots through the locals graph; separate semantics with names and closures (`Spec/Lexical.lean`) | C29 induction over the chain; C30 frames (which slots a compiled block writes) and a simulation between slots and lexical environments, for every history of the locals graph that makes the program's declarations |
| C31, C32, C60 | locals graph over paths as nodes, `flow`, `accrete`, seals, changes in any order; separate relation `Resolves` (`Spec/Scope.lean`) | invariant "map = latest definition here, or what the parent has" preserved by each addition in any order; slots are `0 .. count`; sealed nodes cannot get new definitions if blocks keep the discipline `Allowed` |
| C33–C35 | knowledge, the `can_flow` table with its `todo!` as an explicit crash, rounds of intersect / upgrade / flow over an edge list, the changes the compiler makes (`Model/TyGraph.lean`); consistent typings (`Spec/TyGraph.lean`) | invariants over any history of operations; measure = pending edges; every consistent typing survives a round, so a typable graph resolves; witnesses of disagreement through `Any` and of the crash |
| C36 | loops over candidate types and over nodes, a trial is a function of the type | exact description of the loop, permutation invariance |
| C37 | term edges, block as argument/flag stacks, a command as a tree of requests; parameter binding of user commands | induction over request trees and parameter lists |
| C38 | flattening of expressions (a queue), expansion of operations in rounds with the recursion detector and `LOOPLIM`, `todo!` of path operations as an explicit panic (`Model/Expand.lean`); operations used, recursion among definitions (`Spec/Expand.lean`) | graph invariant preserved by adding an implementation; after round `r` an open operation is inside of `r` different definitions; witnesses of a panic and of a rejected finite nesting |
| C61 | the same model; `ShowsE`: the graph has exactly this expression below a node (`Spec/Expand.lean`); `get_terms` with `i as u8` | induction over the queue of expressions; the edges into an implementation are exactly those made when it is added; witness of lost arguments |
| C62 | `get_impl` over edges newest first | the keyed edges of an operation are exactly its implementations that are not around it |
| C63 | `trace_code_lines`, `Trace::print`, `convert_parse_error` (`Model/Trace.lean`); texts are lists of characters, positions are bytes | the text is split around the span by the statement; lines of an appended text; case for one line, for several, for the end; witness beyond column 10000 |
| C64 | `linech_to_idx`, `pos_to_idx`, `apply_changes` (`Model/LsText.lean`) on top of the document store of C46 (`Model/LsDoc.lean`); what a position is and what a client does (`Spec/LsText.lean`) | the line around a point; a prefix of a line; induction over the edits; composed with convergence of versions |
| C65 | `get_def_text` and the cursor arithmetic | the lines of the document are split around the cursor; joining lines and splitting them again |
| C66 | `path_component` as a scan; the failing first command of an input | every input is closed or has one open quote; witness of the crash |
| C67 | `compile` and its stages (`Model/Comp.lean`) over the graphs of types and locals; `Spec/Comp.lean` says what a syntax graph and a fresh compiler are | each stage that reports a change lowers a rank (`Lemmas/CompRank.lean` to `CompRound.lean`), trials nest at most five deep and each starts from a compiler whose rank is lower or whose depth is greater (`CompEnd.lean`); more rounds do not change a result |
| C68 | the same | where an error comes from is traced through the stages and trials (`CompTrace.lean`); a program whose input is known has a block to try unless it is compiled; witness run by the kernel |
| C69 | the same | the depth is an invariant; witnesses run by the kernel |
| C70 | the same; `Pipe` and `StepOk` (`Spec/Comp.lean`) | invariant over the stages; a step accepted in an earlier compiler is kept |
| C71 | the same; `ArgsFit` (`Spec/Comp.lean`) | what a command knows of its arguments when it succeeds (`Lemmas/CompArgs.lean`), kept until the end; proved for arguments written in place, the rest is false (witness run by the kernel) |
| C72 | the same; `Bound`, `Inside`, `CallOk` (`Spec/Comp.lean`) | invariant: a definition's expression is sealed only when its parameters are mapped as declared, and a variable can be evaluated only under sealed expressions (`Lemmas/CompCalls.lean`). Proved for definitions of at most 256 parameters that use a variable outside calls of other definitions; false otherwise (witness run by the kernel) |
| C73 | the parser with positions (`Model/Tags.lean`); `LParsed.text`: read the line again where the positions say; `Nested`, `InOrder` (`Spec/Tags.lean`) | refinement: a simulation of each parser by the one without positions (`Lemmas/Tags*.lean`) |
| C74 | `syntaxHighlight`; `shown`, `written` (`Spec/Tags.lean`) | the leaves of a parsed line are a chain of places (C73), which the loop over sorted leaves walks. Proved for lines without a path and with only one-byte characters before flags; false otherwise (witnesses run by the kernel) |
| C75 | `nodeAt` | nesting (C73) for what is found, order of the leaves for that it is the only one |
| C76 | `evalExpr` on what `compile` leaves (`Model/Eval.lean`: the closures hold their arguments and variables); `Spec/Eval.lean` says what closures must do (`Behaves`) and that commands ask for the same variables when they know more (`Steady`) | an invariant kept by every move of the compiler (`Lemmas/EvalVars.lean` to `EvalKept.lean`): each slot belongs to one name at one node, asked for by the block before or the definition, and what a compiled block holds is compiled, in scope and of the right type; then induction on the compiled blocks (`EvalHolds.lean`). The nine modelled commands are proved to meet the assumptions (`EvalLib.lean`). Proved for definitions without expressions for parameters, with at most 256 parameters of different names; false otherwise (witnesses) |
| C77 | `Parse.expression`, `readE` (`Model/Read.lean`), `init` (`Model/Expand.lean`), `ast`, `begins` (`Model/Prog.lean`), `compile`, `evalExpr`; `Written`, `Filled`, `FromText` (`Spec/Prog.lean`) | the expanded graph has all that C67, C70 and C76 assume (`Lemmas/ProgTied.lean` to `ProgBegin.lean`, from the invariants of C59 to C61); what is parsed has blocks and different parameter names by the invariants of the parser (C63). Evaluation has the exclusions of C76 except that for equal names |
| C78 | `initN`, `notesOf` (`Model/Notes.lean`: `init` of C61 with the annotated types it collects); `AnnotsE`, `Gets` (`Spec/Notes.lean`) | projecting the collected types away gives `init`; induction over flattening and over the expansion of definitions (`Lemmas/Notes.lean`); an applied type stays settled by C67's `Later.keeps` |
| C79 | the batch of C39 with the statuses and the reports sent (`Model/Progress.lean`); `Told` (`Spec/Progress.lean`) | invariant over schedules: the reports so far are those of the items finished so far in the order they finished; dropping the reports gives a run of C39 |
| C80 | `Main`, `End.code` (`Model/Cli.lean`) on top of the batch of C39; `AllWell`, `FilesOf`, `Loads` (`Spec/Cli.lean`) | decision logic: sorting and removing neighbours keeps the same files once; status by cases, with C39's outcomes for each file |
| C81 | each of the 75 built-in commands and the constructors as a conversation with the compiler that ends in a closure (`Model/Lang.lean` in the language of `Model/Talk.lean`); the store after a session as what the compiler is given (`Model/LangProg.lean`); `World.Ok`, `Sound`, `Stored` (`Spec/Lang.lean`); each stored text with the commands that were known when it was read | every command is well-typed in its own right (`Lemmas/LangCmds.lean`: an `Ok` judgement on conversations, checked command by command); what is well-typed meets the assumptions of C76 on built-in commands (`Lemmas/Talk.lean`, `LangSim.lean`, `LangPlays.lean`); a closure that converts a value to a type it does not have, or looks for a field that is not there, gets stuck (`Act.wrong`), so the theorem says that this never happens; values are restricted to well-formed ones by lifting the evaluator to a subtype; the store of any session has the definitions and types the rest assumes (`Lemmas/LangDefs.lean`, from the invariants of the store, `Lemmas/Defs.lean`). It has the exclusions of C77 |
| C82 | the help text, its printing and its colouring line by line (`Model/Help.lean`); the lines help consists of and what a terminal shows (`Spec/Help.lean`) | the text of each part, ended by a newline, is the text of its lines; the sections of several implementations are the lines with an empty line between them; a line is coloured as it is at every stage of the highlighter except flags without a colon and examples, and the stage is never one of these while a description or usage is shown; stored commands have an implementation (invariant of C45). In the shell it is false if a line of a description looks like a heading (`help_panics`), so that theorem is partial |
| C83 | the parsers with their errors (`Model/ParseErr.lean`): pieces with what follows them, and the expectation; conversion to traces; the kinds of completions offered. `Spec/ParseErr.lean`: when an error fits a text | each parser erases to the one of C51; for each parser, on every rest of the text: what is left is a rest, and the errors fit the whole text. Printing by C63. That completion never crashes is false behind a name and a slash (`slash_panics`, for every name), so that theorem is partial |
| C84 | lines, files and documents as text up to the requests of C04 (`Model/Enter.lean`): phrases, the parsers of C51, the items of a file (C01), the check that commands are defined, and the start of the program with its derived commands. `Spec/Enter.lean`: the commands an expression uses, lines without phrases, what a text asks for | an invariant over events: the store is reached by requests that are said in the texts and whose names are identifiers, every stored text is a definition of the name and type it is stored for as read then, and the environments differ only in the commands known; the store theorems of C04 and C06 and the safety of C81 follow for sessions of lines. That a definition is defined is false if it contains one of the phrases (`clear_in_a_string`, `load_in_a_string`), and a path or `def-ty` with a phrase panics (`path_panics`, `type_phrases_panic`), so those theorems are partial |
| C85 | `def --list` (`Model/Listing.lean`): the rows, the cut of the text in bytes, the two orders, sorting as a parameter. `Spec/Listing.lean`: the contract of sorting, what a row shows, the order of rows, where a definition comes from | an invariant over the events of C84: every stored text begins with `def ` and is that of a line or of an item of a file, at its line; two stable sorts give one order, which with different keys has one sorted list. The first order is none (`input_order_contradicts`), so a sort may panic (`list_may_panic`), and a type may be named like the text of another (`list_order_open`): those theorems are partial |
| C86 | The threads of the shell (`Model/Turns.lean`): the interface, the compute thread and the evaluating threads, with the read-write lock around the definitions; what lines do is a parameter. `Spec/Turns.lean`: one line after the other, what can be waited for in vain, fair runs | an invariant over all schedules refines the threads to one line after the other (`one_after_another`, `each_shown`, `aborted_when_asked`); a measure that falls with each step of a working thread gives that a fair run returns to the prompt or in the end waits for one of six things for ever (`returns_or_hangs`), and returns if lines end without panics and help (`comes_back_partial`). The claim that the prompt always comes back is false: `panic_hangs` with `panic_is_final`, `abort_then_define` and `help_deadlocks` with `definition_waits_for_ever` |
| C87 | What completion offers and hover shows (`Model/Offer.lean`): the commands and types with their help, the choice by what the parser expects, the list of the shell, the text of a hover. `Spec/Offer.lean`: the orders of the hash maps, what is said about a command or a type, the word at the cursor | the items of one name are together in each order of the maps, so that dropping equal neighbours leaves each name once; an invariant over sessions says that the names of commands and types are ones the grammar reads (`names_readable`), and the round trip of C51 reads them back (`offered_reads`); the tagged parser of C73 puts the command that is typed at the end of the line (`commands_while_typing`). In some places nothing is offered (`nothing_offered`), and types are offered but not listed (`types_not_listed`): partial |
| C88 | `typify` (`Model/Typify.lean`): the walk over the syntax graph that writes an argument with its types. `Spec/Typify.lean`: the text of a term of the source, with a style that says what is written at each node | by induction over the rounds: the nodes below a node are those C61 and C77 say they are, the next block is the next one written, the arguments of an implementation are those of the block (`typify_shows`), so nothing that cannot be shown is met (`typify_never_panics`); with the style that writes nothing the text is the source without flags (`bare_E`). That the types are settled: an invariant over compiling says what a command saw of the compiler when it succeeded (`typify_knows`, `settled_shown`) |
| C89 | results (`Model/Tree.lean`): the tree of data of a defined type, with ordered maps, panics of indexing and of refused names; what is written for a result and for a cell. `Spec/Tree.lean`: the picture of a value, the names it uses, when two values are the same but for tables | by induction over values: the map after all fields has for each name its last field (`value_shown`, `result_shown`); a tree is made iff all names are taken (`value_shown`); from equal trees of one type, equal values (`shown_apart_partial`); the field read is the field shown (`shown_is_read_partial`). The last two need that no type has two fields or variants of one name: otherwise they are false (`last_shown_first_read`, `field_hidden`, `variant_hidden`) |
| C90 | `run` (`Model/RunLine.lean`): searching and removing the flags, what the flags change, the report; files and what the language does are parameters, processing is that of C39. `Spec/RunLine.lean`: a path with flags written behind it, what a report tells | a flag starts with a blank and has no other, so that in a path without flags followed by flags each is found where it was written (`flags_seen_partial`), hence the file and settings (`file_loaded_partial`); the lines of the report by induction over the items (`report_tells`); an invariant over all schedules for evaluation in turn, and C39 for the outcomes (`run_reports_partial`). Partial since paths may have the text of a flag in them (`path_mangled`, `flag_appears`) |
| C91 | the compiler and its locals graph (as for C76, C81); `Spec/Names.lean`: one list of all variables with the places where they are defined, and what compiled blocks hold, against `Resolves` of `Spec/Scope.lean` | an invariant of compiling: a block is sealed only by a command that asks for no further variable (`Builtins.Prompt`, proved for every command but `fold-while`), an argument is freed only if it gets none, a body is sealed only with its parameters in place; so no variable is added where an answer was given (`firm_kept`), and what a compiled block holds is what the final graph answers (`names_are_lexical_partial`), lifted to program texts (`sessions_names_are_lexical_partial`). Partial: not with `fold-while` (`annotation_changes_meaning`), expressions as parameters, or more than 256 of them |
| C92 | the compiler and the evaluation of compiled blocks (as for C76, C81, C91); `Spec/Meaning.lean`: an evaluator of the program as it is written, with the values of variables by name (no compiled blocks, no places in an environment; of what the compiler found, it uses the types of nodes, and which calls pass nothing) | simulation: when a compiled block is evaluated, the places of all variables that can be seen from it hold the values by name, and evaluating changes only places further inside or at the next block (`evalExpr_means`); a command that compiled does on its block what its conversation says (`Talk.planned`); on well-formed values (`exprMeans_low`), lifted to program texts (`sessions_evaluate_as_written_partial`). Partial: not with `fold-while`, expressions as parameters, more than 256 parameters, or one name twice in a `let` |
| C93 | `CodeInjector`, `BinaryOp`, the code that is made for tuples; the surroundings of a program (until here a parameter, for what compares keys and tuples) are built from compiled code, to any depth (`Model/Inject.lean`) | C92 and C81 applied to the code, with `$rhs` in the first place of the environment (`compile_slot`: variables keep their places while compiling, `Lemmas/Slots.lean`). Partial: as for C92; and the code is compiled with given nameless types, and evaluated in surroundings one level less deep. That the text for tuples describes the lexicographic order is not proved, and is false for some definitions |
| C94 | `convert_coloured_str`: the loops over lines, slices and characters, tabs as spaces (`Model/Wrap.lean`). Splitting the text into lines and slices (crate `cansi`), the widths of characters (crate `unicode_width`) and the styles are parameters | invariants of the loop: the characters so far, with their styles (`cutSlice_glyphs`); that no row could take the next character (`Cut`). Partial: that rows fit is proved for lines without tabs, of characters that are not wider than the terminal |
| C95 | `calculate_cursor_offset`, `sum_newline_chars`, `scroll_location` (`Model/Wrap.lean`); floating point numbers by three laws (`Part`) | induction over the rows (`cursorLoop_spec`), with C94 for the text in the rows; arithmetic for the bar. Partial: characters of one column and no tabs, fewer than 65536 characters; areas that are not empty |
| C96 | `make_dir_table`, `fmt_systime` (`Model/Dir.lean`): names as byte strings that may not be text, entries that cannot be read, metadata that cannot be read. Specification of extension, row and time in `Spec/Dir.lean` | induction over the entries (`addAll`), sorting keeps the rows and orders the names; sorted lists with distinct keys that are permutations are equal; the texts of times compared character by character. Partial: order independence for names that are text, times in the years 0 to 9999 |
| C97 | `benchmark_table` (`Model/Dir.lean`), a duration as nanoseconds | arithmetic |
| C98 | `ensure_init`, `watch_fs` and `open` on the cache of C41 (`Model/Watch.lean`): files, watcher thread and cache as a state with steps in any order | invariant over histories: every entry is what the file holds, or an event about the file is waiting. Partial: one root, changes reported file by file while the watcher runs; counterexamples for each of these |
| C99 | the notes of `ty_resolution_err` and `conflict_err` (`Model/TyErr.lean`), on the type graph of C33 (`Model/TyGraph.lean`) | cases of `can_flow`, then of the message. Partial: the side at the target and backward flows, with counterexamples |
| C100 | the folds and trimming in `err.rs` (`Model/Msg.lean`), on the blocks of C37 (`Model/Blk.lean`) | what is left of a block is a sublist of what was written and, with what was taken, all of it (`atEnd_spec`); cutting off the last separator leaves the joined list. Partial: order of flags given to definitions, with a counterexample; at most 256 flags and arguments (C37) |
| C101 | the traces added while an error of too deep inference goes up (`Model/DepthMsg.lean`, `infer.rs:325-422`) | induction over the chain: each place takes over the first note's text and pushes the others inwards. Partial: the advice at the outermost place, with a counterexample |
| C102 | the texts of the advice (`Model/Advice.lean`), with the parser of C51 (`Model/Parse.lean`) | in braces: the first block is read up to the same place, after which nothing differs; without braces and for dots: the round trip of C51; behind an operator: what follows is the same. Partial: what follows an operator starts with a blank; expressions without braces are in the form of C51; dots, with a counterexample |
| C103 | the text of `op_not_found` (`Model/NotFound.lean`) on the store of C04 (`Model/Defs.lean`) | the store stays well-formed in every session, so its keys are listed once; as the lookup failed there is no entry for all types. Partial: the names of numbers and texts, with a counterexample |
| C104 | what is drawn of the outputs (`Model/Screen.lean`) in the shell of C54 (`Model/Shell.lean`) | go to the top, then down in steps of five: the row is then within the five rows after the place. Partial: small screens and more than 65536 rows, each with a proof that no sequence of keys helps |
| C105 | the buffered writer and the file of `save`, call by call (`Model/SaveFile.lean`) | what file and buffer hold together is always a beginning of what was given; a list of answers of the system that ends is a machine that stops. Partial: after an error or a stop the old contents are lost |
| C106 | the queue of keys between the threads, and who takes them when (`Model/Keys.lean`) | invariant over all interleavings: keys taken and waiting are those pressed; what the thread of the interface does tells whether a line is evaluated and was aborted. Partial: keys taken while a line is evaluated are thrown away |
| C107 | files, and the calls by which items save (`Model/ParSave.lean`) | the calls about one file can be looked at alone; if they are all of one item, they come in its order. Partial: two items that save to the same file may leave a mixture |
| C108 | `save` in the world of C98 (`Model/SaveOpen.lean`) | invariant over histories: entries of the cache are of files that were opened. Partial: files not opened before, or after a turn of the watcher |
| C109 | the places of `open`, `save`, `ls` and `cd` (`Model/Io.lean`, `Model/SamePath.lean`) | directories of tabs are relative after every history; both ways of joining resolve to the same place. Partial: the root `.` of the shell as it is started, not `ls` in the root after going back to it |
| C110 | the message loop, the pool of tasks and the handlers of the language server (`Model/Server.lean`), on top of the document store of C46 | numbers sent, waiting and not yet received are a permutation of those asked, over every schedule; likewise edits made, waiting and not yet received; what each task does to the definitions. Partial: the four requests with a handler; the opening of the document is carried out before its edits are received; definitions after a save if messages are carried out in turn |
| C39, C40 | batch as a transition system over schedules and cancel points | invariant over schedules; counterexample for cancel without fail-fast |
| C41 | cache as a map, events of several evaluations in any order | invariant over histories: every entry was read from a file of that key since its last change; counterexamples for case folding and the read-then-store race |
| C42 | component fold in `i32`, with and without overflow checks, and where the operating system ends up | exact condition of acceptance (`save_decides`), counterexamples, partial for paths that never rise above the root |
| C43 | path resolution over a file system with links, tab directories | prefix lemma, invariant over sequences of `cd`; partial for `open` |
| C44, C45 | printing plan, writer over characters, a separate reader (`Spec/Csv.lean`) | arithmetic on sizes; round trip by induction over characters, cells and rows |
| C46 | pending queue | permutation convergence |
| C47, C48, C49 | editor, history, completion state machines | refinement / invariant over op lists |
| C53, C54, C55, C56 | tabs, key events, event loop, outputs | invariants over runs; witnesses for the false parts |
| C50 | table of naturals | list lemmas |
| C59 | fold loops over the shared cache | refinement to a left fold |
| C51 | the parser for expressions and for definitions of commands and types (`Model/Parse.lean`); how they are written, and which can be written (`Spec/Parse.lean`) | round trip by induction on the depth of nesting; every parser only yields what can be written; the depth needed is bounded by the length of the text |
| C52 | header lookup with cache | cache invariant |

Properties the source violates are recorded below with the theorem that proves the violation.

## Findings (model-level disagreements between property and code)

- **C40** `bat.rs:229`: the cancel switch is consulted only when `fail_fast` is set. A batch without
  fail-fast runs every item after being cancelled, contrary to the doc comment at `bat.rs:166-168`.
  Proved for every such batch and schedule by `cancel_ignored_without_fail_fast`; the fail-fast half
  is `cancel_with_fail_fast_partial`.
- **C46** `ogma-ls/src/workspace.rs`: an edit delivered again with the version the document already
  has is applied a second time (`duplicate_edit_applied_twice`).
- **C49** `completions.rs:80-83`: discarding completions keeps the change set, so a reply to the latest
  request that arrives after the line was changed by a cursor move, history step or Enter is shown on
  the changed line (`late_reply_shown_on_changed_line`).
- **C54** `mod.rs:156-158, 255-259`: events read in one turn after Alt+q closed the last tab crash the
  shell (`crash_after_closing_last_tab`). `shell_does_not_crash_partial` covers all other runs.
- **C55** `mod.rs:255-275`: all waiting events are processed before Enter takes effect, so keys typed
  or pasted after Enter in the same turn join the evaluated line (`typed_ahead_joins_line`).
- **C58** `file.rs:153-160`: a header comment counts as separate from the first item only if the next
  characters are exactly two newlines. After a line of spaces, or in a file with `\r\n` line endings, the
  first item gets the header comment and its own comment lines are lost
  (`header_comment_replaces_item_comment`); all other items are right (`documentation_attached_partial`).
- **C01** a block of comments only becomes an item with empty code, so the batch holds an empty expression
  (`comment_block_becomes_empty_item`). A line `[export()]` is silently taken as code, and an import path
  component keeps only its leading identifier (`bad_directive_becomes_code`).
- **C04** `impls/mod.rs:347-362`: the constructor of a record type is registered with `insert_intrinsic`,
  which does not check what it replaces. `def-ty if { x:Num }` takes the place of the generic built-in `if`
  (`record_replaces_builtin`); `def --clear` then removes `if` altogether (`clear_does_not_restore`); a
  build with debug assertions panics (`record_named_as_builtin_panics`). Built-ins with an input type are
  safe (`typed_builtin_kept`); generic ones are when no record type has such a name
  (`generic_builtin_kept_partial`, and C06 `clear_restores_partial`).
- **C06/C07** `types.rs:386-395`: clearing only the files' definitions can leave a shell type whose field
  has an unknown type (`clear_files_can_dangle`). No caller in the repository clears files alone.
- **C07** a type with two variants of one name is accepted, and the second constructor replaces the first
  (`duplicate_variant_accepted`). Loading a file that fails half way keeps what came before the failure
  (`failed_load_is_partial`).
- **C08** `types.rs:821-829`: tuple types are identified by a name that joins member names with `-`, while
  user type names may contain `-` and `_`. The tuples of (`A-B`, `C`) and (`A`, `B-C`) are one type
  (`dashed_names_collide`); a user can define a type named like a tuple (`user_type_is_a_tuple`); names with
  `_`, and the name `U`, cannot be read back (`underscore_name_not_read`). For all other names:
  `tuples_distinct_partial`, `tuple_name_round_trip_partial`.
- **C09** two fields of one name are accepted and only the first can be read (`duplicate_field_unreadable`).
- **C12/C13** `partitions/mod.rs`, `find`: exports only restrict imports. A qualified path such as `/a/g`
  reaches items that `a` does not export. A path may go through a type or command: `f/..` is the partition of
  `f`. A lookup for the items of a partition other than a root is made from the parent of the item asked for;
  lookups for the shell and plugin roots start at `/`. The imports of a file that defines nothing are not
  checked. All shown by examples in `Props/Part.lean`.
- **C14** `defs2/mod.rs`, `Impls::get`: two generic candidates are reported as an ambiguity although one
  candidate has the exact input type (`choose_exact_lost`); `choose_ideal_partial` covers every other case and
  `choose_sound` says exactly what the code does.
- **C15/C18/C50** `skip` on a shared table and `nth` add one to the argument. With the largest machine number a
  checked build panics; a wrapping build keeps the whole table (`skip_max_false`, `skip_owner_false`) or evaluates
  `nth` on the header row (`nth_max`). Smaller numbers: `skip_eq`, `nth_exact_partial`.
- **C19** `sort-by` on a table without a header row panics (`sort_by_empty_panics`): `values[1..]` is taken of an
  empty slice.
- **C21** `grp` keys join printed cells with `-`, so different rows can share a group: (`x-y`, `z`) and
  (`x`, `y-z`) (`grp_merges`), the number 1 and the text `1` (`grp_merges_kinds`). `grp_groups_partial` says the
  groups are exactly those of the printed keys. `grp-by` treats a comparison that fails as "equal"
  (`grp_by_swallows_errors`).
- **C22** `dedup` on tables starts at the header, so a first data row equal to the header on the chosen columns
  is dropped (`dedup_drops_first`); all other cases: `dedup_rows_partial`, `dedup_all_partial`.
- **C23** `pick --add` and `append` on an empty table add nothing (`pick_add_empty`).
- **C24** `arithmetic.rs:148-160`: adding by row a table with a header only that is wider than the first panics
  with "add_rows should extend cols": `range 0 3 | + { Table a b }` (`add_rows_union_panics`). All other
  pairs: `add_rows_union_partial`, `add_rows_union_empty`.
- **C37** `astgraph.rs:362-389, 552-575`: positions of arguments and flags are cut to a byte and the first 256 win, so
  later ones are dropped without a report (`terms_past_256_dropped`). The argument counter is a `u8`: the 256th argument
  a command takes panics a checked build (`argument_256_panics`). `params.rs:104-145`, `comp/mod.rs:464-496`: an
  argument of another type than its parameter ends the binding of parameters before leftovers are looked at; when the
  body does not mention its parameters it compiles anyway, so `def foo (x:Num) { \ 5 }` accepts `foo 'str' 1 2`
  (`unused_parameter_hides_leftovers`). All other cases: `command_uses_all_partial`, `def_binds`, `def_count_partial`.
- **C36** `infer.rs:256-318`: a candidate whose trial stops at the depth limit fails the whole inference, even when
  exactly one other candidate compiles (`only_one_not_inferred`); `infers_iff` is the exact condition and
  `infers_any_order` says the inferred type does not depend on the order. The kind of error does
  (`failure_kind_depends_on_order`), the ambiguity report can name types that do not compile
  (`ambiguity_names_failing`), and over several nodes a success before a node at the limit hides it
  (`nodes_depth_depends_on_order`).
- **C42** `io.rs:303-327`: `save` adds up the components of the joined path and accepts a positive sum (`save_decides`),
  so `../x/y` is written outside the root (`save_escapes`), a named root may be left (`save_escapes_named_root`), and
  links lead out (`save_follows_links`). `/../../x` wraps in a build without overflow checks and is written, and panics
  in one with them (`save_wraps`). With an absolute root nothing can be saved (`save_absolute_root`).
- **C43** `io.rs:221-264`: `open` checks the path against the root but reads the root-relative rest from the current
  directory of the process (`open_outside_cwd`); inside when the two are the same (`open_inside_partial`). A relative
  root other than `.` is joined to itself by a new tab (`relative_root_doubled`). `ls path` has no check at all
  (`ls_outside`).
- **C41** `fscache.rs:114-116`: keys are lower-cased, so files that differ in case share an entry
  (`case_confuses_files`). Contents read before a change and stored after its notification stay
  (`stale_after_change`). A notification for a directory does not cover the files in it (`directory_change_ignored`).
- **C44** `print.rs:27-79`: the last rows are found with a fixed `len - 11`, right only for a table marked as having a
  header; without the mark six last rows are shown and the elided count is one too high (`headerless_miscounts`).
- **C45** A nil cell and an empty text are saved alike (`nil_is_empty_text`); so are a table without rows and one with a
  single empty cell (`no_rows_is_one_cell`). Quotes are escaped with backslashes, not doubled.
- **C60** `morphism.rs:602-622`: `fold-while` defines `$row` without announcing it (`assert_adds_vars`), so a first attempt
  that fails seals its block and an argument may take an outer `$row` before the inner one is defined
  (`late_definition_changes_answer`). `let`, `fold`, `map` and parameters announce it and keep `Allowed`
  (`answer_final_partial`).
- `locals_graph.rs:391-404`: `sealed` keeps no record of visited nodes; an argument leads to its block and to what its
  block leads to, so the number of visits doubles with each level of nesting.
- **C30** `pipeline.rs:405-440` with `arg.rs:42-58`: `let` takes the argument that names its variable through the pointer of a
  lazy parameter. In `def setit Num (x:Expr) { let 5 $x | + 0 }` the call `setit $y` sets (or creates) `y` for the block after
  the call, so a command changes a variable of its caller (`leak`: 6 instead of 2). Programs where `let` does not name a lazy
  parameter evaluate lexically (`lexical_eval_partial`).
- **C30** `comp/mod.rs:520-554`: if a definition's block is compiled before the parameters of its call are mapped, its list
  of parameters is empty (`unwrap_or(&[])`) and eager arguments would not be evaluated. The model compiles in the order in
  which this does not happen.
- `morphism.rs` `$row` is declared at the argument node as written (`peek_next_arg_node` does not follow pointers), so an
  expression passed on through a lazy parameter does not see `$row`.
- **C33** `tygraph.rs:436-439`: once `Any` has flowed from input to input the edge is completed and never looked at again; the
  two inputs may later be settled with different types (`any_disagrees`). All other completed flows agree
  (`flows_agree_partial`).
- **C35** `tygraph.rs:745-811`: `can_flow` has no case for an obliged type meeting a different known one, so resolving (or
  `ObligeInput`/`ObligeOutput` on such a node) panics with `todo!` where the opposite direction is a conflict error
  (`obliged_known_crashes`, `known_obliged_conflicts`). It is the only such case that resolution can reach, and only on
  graphs that have no consistent typing (`crash_partial`, `typable_resolves`). Reading the compiler, we found no program
  text that builds such a graph; the argument builders report an error first.
- `tygraph.rs:473-531`: `intersect_inferred_sets` documents an error for an empty intersection but never returns one, and
  it leaves the target's larger set alone when the source's set is contained in it.
- **C38** `ast.rs:272-275`, `astgraph.rs:174-200`: an operation that is a path of several parts reaches a `todo!`, so expansion
  panics (`path_panics`). Without such operations it never panics (`no_panic_partial`).
- **C38** `astgraph.rs:93-120`: definitions nested more than 128 deep are reported as an endless loop although none uses
  itself (`deep_rejected`). Fewer than 128 definitions of which no untyped one uses itself always expand
  (`expansion_ends_partial`).
- **C38** `astgraph.rs:303-347`: only definitions with an input type take part in recursion detection. One that uses itself
  is not rejected: inside of itself it is silently left out of the implementations (`never_inside_itself`,
  `all_implementations`). An untyped one that uses itself is stopped only by the limit on rounds (`untyped_circle_fails`);
  as every round expands every open operation, `def f () { f | f }` would need `2^128` nodes before that limit is reached.
- **C61** `astgraph.rs:362-390`: positions of arguments are stored as `u8`, so of more than 256 arguments the later overwrite the
  earlier and the call compiles with arguments missing (`terms_lost`, `call_loses_arguments`).
- **C51** `parse/mod.rs:387-396`: text after the last argument of the last block is tried as one more block even without a
  pipe, so `ls --` is read as `ls | - { - }` (`block_without_pipe`).
- **C51** `parse/mod.rs:483-500`: an operator is tried as a symbol first, so a path which starts at the root (`/foo/bar`) is
  read as a division and never as a path (`rooted_path_never`), although `path` has a case for it.
- **C51** `parse/mod.rs:69-79`: an input which starts with `def ` is a definition, but after a space `def` is the name of a
  command (`space_matters`). The canonical form of an input therefore starts with a space unless it is a definition.
- **C51** `parse/mod.rs:837-859, 916-918`: `def foo ( ) { … }` and `def-ty A { }` are errors because of the blank between the
  brackets (`blank_in_brackets`), and so are two spaces after `def`.
- **C51** `parse/mod.rs:737-778`: a dot after a number or a bare word belongs to it (`dot_in_word`), so such an argument has no
  fields; a word with both kinds of quotes cannot be quoted (`IsArgWord` says when it can be written bare).
- **C51** `parse/mod.rs:900-906`: a type with no variants is accepted (`no_variants`).
- **C01** `parse/file.rs`: an item whose text starts with `def`, such as a call of a command `default`, is taken for a
  definition, which makes loading the whole file fail; a file ending right after the `]` of a directive is rejected.
- **C39** `rt/bat.rs`: items which are skipped because an earlier one failed send no progress report.
- **C04/C06** `lang/impls`: `def A::X` is overwritten by a later `def-ty A :: X`; the text of a definition which contains
  ` --clear`, ` --list` or `--help` is treated as that command; a first definition cannot mention itself although a
  redefinition can.
- Tables: `filter nope { … }` on a table without data rows does not report the missing column.
- **C63** `err.rs:777-779`: the column of the first mark starts from 10000 as the largest possible value, so an error further
  to the right is marked together with everything after column 10000 (`far_column`).
- **C63** `err.rs:808`: an error on the line feed of a Windows line ending shows no line (`line_feed_hidden`).
- **C63** `parse/mod.rs:226-228`: an empty span is widened by one byte; in front of a character of several bytes printing
  would panic (`empty_span_panics`). The parser's empty slices are all at the end of the text, so this is not reached.
- **C64** `ogma-ls/lib.rs:22-29`: a position between the two units of a surrogate pair is taken for the end of the line, so a
  range that starts there and ends on the same line panics (`split_pair`). Editors do not send such positions.
- **C65** `ogma-ls/server/completion.rs:24`: on the empty line after the last line feed there are no completions
  (`last_line_nothing`), because the text that is looked at has no such line.
- **C65** `ogma-ls/server/completion.rs:25`: a line which ends with an extra carriage return is a byte shorter when the cut out
  text is split again, so the cursor is off by one (`stray_return`).
- **C66** `ogma-ls/completion.rs:98`: asking for completions right after a command name and a `/`, as in `foo/`, reaches
  `todo!()` and panics (`slash_panics`), since the parser then expects a path.
- **C66** `ogma-ls/completion.rs:153-179`: the path that is looked up still has its opening quote, so a quoted path with a
  directory in it finds nothing (read off the code; the file system is not modelled).
- **C68** `ogma/src/eng/comp/mod.rs:445`: `ls | filter {get size | let $y | is-finite} | foo {len:TableRow | get b}` with
  `def foo (x:Expr) { len }` panics with "error should be some if unsuccessful" (`unused_argument_panics`). The argument of
  `foo` is not used, so its input is never known; trying a type for it compiles a copy that goes on although the whole
  program is compiled, and there is no block left that could give an error.
- **C69** `ogma/src/eng/comp/infer.rs:276`: a copy that is adopted keeps its raised depth, so the limit counts the types
  inferred so far. `ls` with five `filter {get size | let | is-finite}` compiles, with six it is refused
  (`six_filters_refused`).
- **C71** `ogma/src/eng/arg.rs` (`supplied`) looks at the node of the variable, not at the expression a parameter stands for,
  when the variable is already known to take any input: `\ 5 | foo {get size 0}` with `def foo (x:Expr) { let {+ 1} $y | + $x }`
  compiles; `+` gives its argument a number but `{get size 0}` is compiled for rows (`late_argument_misfits`).
- **C72** `ogma/src/eng/comp/params.rs:188-196`: an argument of the wrong type makes mapping the parameters give up, without
  an error, and before the number of arguments is checked; `comp/mod.rs:470-478` then takes a definition that could be
  compiled without its parameters. `ls | foo 'no' 'more'` with `def foo (x:Num) { len }` compiles
  (`surplus_arguments_compile`).
- **C74** `ogma-shell/lib.rs:504-522`: to find the quotes of a flag the highlighter takes `line.chars().nth` with a byte
  position. After characters of more than one byte it looks at the wrong character; `ls 'éé' --f'` then makes the range run
  past the end of the line and the shell panics while typing (`highlight_panics`).
- **C74**, **C75** `ogma/src/lang/syntax/ast.rs:269-274`: the command of a block given by a path panics ("partitions are not yet supported"), so
  typing `a/b` stops the shell
  (`highlight_path`).
- **C73** the range of the field access `x.'a b'` leaves out its closing quote, and a position on the space after `def` is
  taken for `def` (`found_node`). Both are minor.
- **C76** `ogma/src/lang/impls/intrinsics/pipeline.rs:409-414`: `let 1 $x 'a' $x` asks for the variable `x` of the next block
  twice. The second time it is there already, with the type of the first value, and its type is not checked
  (`locals_graph.rs:221-243`); the program compiles, and setting the variable fails the debug assertion of `set_data`
  (`rebinding_is_stuck`). Without debug assertions the variable then holds a string although it was compiled for a number.
- **C76** `ogma/src/eng/blk.rs:149-180`: if a parameter is an expression, `let` in the body of a definition sets a variable of
  the caller. `\ 3 | foo $y | + $y` with `def foo (x:Expr) { if #f { let 5 $x | \ 1 } 1 }` compiles, but `$y` is never
  set (`unset_variable_is_stuck`): the debug assertion of `fetch` fails; without it `+` reports that `Nil` is no number.
- **C76** assumes that the parameters of one definition have different names. The parser sees to it (`parse/mod.rs:840-855`), which
  `simple_of_text` (C77) proves. An earlier version of this file said that nothing checks it; that was wrong.
- **C82** `ogma-shell/lib.rs:605-618`: the highlighter takes a line of a description that begins with `Flags:` for the heading of the
  flags, and expects a colon in every line after it that begins with ` --`. The help of a definition shows its text, so
  `foo --help` panics for a definition with the text `def f () { get 'a`, `Flags: b`, ` --c' }` on three lines (`help_panics`). A line
  beginning with `Examples:` makes the rest of the text be taken for code.
- **C82** `ogma/src/lang/impls/mod.rs:401-419`: the usage of a type with variants is put together without spaces so that the name of the
  variant follows that of the type, but then its fields also run together: `Foo::Ax:Numbery:String` (`variant_fields_run_together`).
- **C82** `ogma/src/rt/process.rs:35-51`: only the first command is looked at. With `--help` on a later one the request is compiled, and
  with a path for a command (`a/b --help`) finding its name panics.
- **C81** `ogma/src/lang/impls/intrinsics/morphism.rs:973-1012`: `pick` does not check that its input is a table. It is safe because it is
  registered for tables only (`morphism.rs:20`).
- **C83** `ogma/src/lang/syntax/parse/mod.rs:441-445` with `ogma-ls/completion.rs:97`: a name with a slash behind it (`a/`) is an error
  which expects a path; the completions for that are `todo!()`, so pressing tab there panics (`slash_panics`).
- **C83** `ogma/src/lang/syntax/parse/mod.rs:306-322`: `maybe_cx` is documented to add its note only if the error has none, but it always
  does. So the error of `ls #nn` also says `no command` about the whole text (`no_command_said`).
- **C84** `ogma/src/lang/defs.rs:308-351`, `ogma-shell/lib.rs:170`: ` --clear`, ` --list`, ` --load` and `--help` are looked for anywhere in
  a line that begins like a definition. `def g () { \ 'try --clear' }` removes all definitions and defines nothing (`clear_in_a_string`),
  and with ` --load` in a text the definition files are loaded (`load_in_a_string`). It also happens to an item of a file, which then removes
  the items before it (`file_can_clear`).
- **C84** `ogma/src/lang/defs.rs:383-421`: with `def-ty`, each of `--help`, ` --list` and ` --clear` anywhere in the line is a panic (`todo!`)
  (`type_phrases_panic`).
- **C84** `ogma/src/lang/defs.rs:437`: a definition that uses a path panics (`path_panics`): `block.op()` is not there for paths.
- **C84** `ogma-ls/workspace.rs:130-140`: documents are loaded in the order of a hash map, and errors are dropped. A definition for a type in
  another document is stored or not depending on that order (`load_order_matters`).
- **C85** `ogma/src/lang/defs.rs:508-516`: the order by input says of two commands for any input that each is less than the other
  (`input_order_contradicts`). Since Rust 1.81 `sort_by` may panic on that; the contract allows it for the commands there are from the start
  (`list_may_panic`).
- **C85** `ogma/src/lang/defs.rs:497`: input types are shown and sorted by their text, and `Num` is shown as `Number`. With a type named
  `Number`, two rows look alike and their order is that of a hash map (`list_order_open`).
- **C86** `ogma-shell/interface/mod.rs:693-697`, `:710-712`: a panic in the compute thread is meant to be reported (`:734-737`), but the shell waits for
  a message which the thread no longer sends, and the sender is not dropped. The prompt never comes back, Ctrl+x or not (`panic_hangs`,
  `panic_is_final`). `def-ty A { } --help` does it (C84 `type_phrases_panic`).
- **C86** `ogma-shell/lib.rs:284-286`, `:308`: an aborted evaluation goes on in its thread and keeps its lock on the definitions. If it does not end,
  the next `def` waits for it, and as readers wait behind a writer, drawing waits too, so that Ctrl+x is not even read
  (`abort_then_define`, `definition_waits_for_ever`).
- **C86** `ogma-shell/lib.rs:308`, `:326`, `:434`, `:625`: for help with examples the lock for reading is asked for while it is already held. If a `def` waits
  for it at this time, possible after an abort, both wait for ever (`help_deadlocks`, `definition_waits_for_ever`).
- **C86** `ogma-shell/lib.rs:272-288`: after a panic of the evaluation the switch is not flipped, so `failed joining processing thread` is never shown; the
  shell counts seconds until Ctrl+x (`Hangs.failed`, `abort_comes_back`).
- **C87** `ogma-ls/completion.rs:62`, `:94`: nothing is offered behind a blank after a command, for a type of which a letter is typed, for a command in the body of a
  definition, and in quotes (`nothing_offered`): such a text can be read and has no part at its end, or cannot be read and the error says that nothing is expected.
- **C87** `ogma-shell/interface/completions.rs:46-65`, `ogma-shell/lib.rs:470-478`: behind `ls:` the types are offered, but the shell takes `ls:` for the word they have to
  start with, so that none is listed (`types_not_listed`).
- **C87** `ogma-shell/lib.rs:470-478`: directly before a blank the word is empty, so that any ten of what is offered are listed whatever was typed (`before_blank`).
- **C87** `ogma-ls/completion.rs:405-413`: types behind a colon are no part of the text, so that hovering over them shows nothing (`type_not_shown`).
- **C88** `ogma/src/eng/annotate.rs:23-52`: what `typify` shows cannot be entered again: flags and the quotes of identifiers are left out, so that different arguments are shown
  alike (`shown_alike`).
- **C88** `ogma/src/eng/blk.rs:149-180`: the variable that `let` makes gets no type in the type graph; it is shown as `$x:?` (`made_variables_untyped`).
- **C89** `ogma/src/lang/types.rs:648-670`: of two fields of one name the last is shown, though reading gives the first (`last_shown_first_read`); values that differ are shown alike
  (`field_hidden`).
- **C89** `ogma/src/lang/types.rs:631-640`: two variants of one name are shown alike, also if one has a table and the other text (`variant_hidden`).
- **C89** `ogma/src/output/print.rs:137-140`: if a type or variant has a name that `kserd` does not take, showing a value of it panics (`unshowable`). The parser of types takes any
  name of a command.
- **C90** `ogma-shell/lib.rs:336-346`: the flags of `run` are searched in all of the line, also in the path and in longer words, and are removed wherever they are: a file
  `a --no-parrot.ogma` is not found (`path_mangled`); removing one flag may make the other (`flag_appears`).
- **C90** `ogma-shell/lib.rs:266`: a batch is given a progress that nobody cancels; Ctrl+x leaves it running (C86), and no item is ever reported as cancelled.
- **C91** `morphism.rs:602-622`: `fold-while` does not announce its `$row`. In `range 10 12 | fold 0 { let $acc | range 0 3 | fold-while { \ 0 | + 0 } #t { + { \ $row | get --Num i } } | + $acc }`
  `$row` is the row of `fold-while`, and the program makes 6. With `{ :Num + … }`, the type `+` has anyway, its block is compiled before the variable is defined, `$row` is
  that of `fold`, and the program makes 63 (`annotation_changes_meaning`).
- **C92** `comp/mod.rs:470-484`, `params.rs:55-58`: if the body of a definition is compiled before the types of the arguments of a call are found, the call passes none: the arguments are
  not evaluated, and need not be compiled nor even be as many as the parameters. After `def five (x) { \ 5 }`, `\ 1 | five { + 'a' }` is refused, but `\ 1 | five { \ 1 | + 'a' }` makes 5; and
  `\ 1 | five 1 2 3` is refused, but `\ 1 | five { \ 1 | + 1 } 2 3` makes 5 (`arguments_may_be_dropped`).
- **C93** `cmp.rs:202-232`, `eng/eval.rs:129-131`: the code that is made for tuples is read and compiled with the definitions of the user. After `def != Ord (rhs:Ord) { \ #f }`, `cmp` of tuples
  finds (2, 2) less than (1, 3) (`definitions_change_tuples`); and a command called `t0` makes `get t0`, which the code contains, a call of that command, so that it no longer
  compiles (`definitions_hide_elements`).
- **C94** `ogma-shell/interface/mod.rs:882`, `:954`: a tab counts for no column when a line is cut, and is then shown as four spaces, so that the row is wider than the terminal and its end is not
  shown (`tabs_do_not_fit`).
- **C95** `ogma-shell/interface/mod.rs:761-776`: at the end of a full row the cursor is drawn beyond the last column instead of at the begin of the next row (`cursor_leaves_the_screen`); after
  an empty line it is drawn a line too high (`empty_lines_move_the_cursor`); after a character of two columns it is drawn in the midst of it (`wide_characters_move_the_cursor`).
- **C95** `ogma-shell/interface/outputs.rs:129`: in an area without rows, the scroll bar has one row, outside of the area (`scroll_bar_leaves_an_empty_area`).
- **C96** `io.rs:133`: a name that is not valid Unicode is shown as an empty name; several of them cannot be told apart, and their rows are in the order in which the system lists them
  (`odd_names_are_lost`). `io.rs:131`: entries that cannot be read are left out without a message. `io.rs:167-171`: before the year 0, texts of times do not sort as the times (`early_times_sort_wrongly`).
- **C98** `fscache.rs:155-156`: keys of the cache are relative to the root. With two roots in one process, `open` gives the file of the first root for the second (`roots_are_confused`).
- **C98** `fscache.rs:102-111`: only the first root is watched; changes below another are never seen while the entry is in use (`second_root_is_not_watched`). The watcher is set up by another thread, and
  changes before that are not seen (`change_before_watching`).
- **C98** `fscache.rs:140-151`: if a directory is renamed to another's name, the events name the directories and the files below keep their entries (`renamed_directories_are_not_seen`).
- **C98** `fscache.rs:155`: an event about a path that is not below the root panics the watcher thread; from then on no change is seen (`watcher_dies`). Whether `notify` can report such a path is not modelled.
- **C99** `resolve_tg.rs:85, 108, 137`: where an output flows into an input, the note at the target says what the target returns, although its input is meant (`wrong_side_is_told`), and the other
  way round for inputs that flow into outputs.
- **C99** `tygraph.rs:410-415, 440-443`: if a type flows backwards, the message still takes the edge's source as the source of the type; each of the two notes has the type of the other
  place (`types_are_told_the_wrong_way_round`).
- **C100** `comp/params.rs:88-91`, `err.rs:275`: flags given to a definition are listed in reverse: the message turns the list round, as it expects the stack of a built-in command
  (`flags_of_definitions_are_reversed`).
- **C101** `infer.rs:409-421`: the outermost place gets the advice of the innermost: a command whose output is to be inferred may be told to annotate the input of an expression
  (`advice_does_not_fit`).
- **C102** `infer.rs:366-372`: an expression such as `$x.y` is put in braces by the advice about its input, but is not read there, as a command is expected
  (`input_advice_for_a_dot`).
- **C103** `types.rs:109-123`: messages speak of `Number` and `String`, which are no names of types (`Num`, `Str`); a user may define a type `Number`, and is then told that
  `abs` is not defined for `Number` but is implemented for `Number` (`number_is_no_name`).
- **C104** `outputs.rs:77`: the last place to scroll to is cut to 16 bits: of 65537 rows only those of the first screen can be seen (`far_rows_are_never_shown`). Keys scroll by 5 or 25 rows,
  so that with less than five rows for results, some rows are never shown (`rows_between_are_not_shown`).
- **C105** `io.rs:326`: the file is emptied before anything is written: after an error (a full disk) or if the machine stops, it holds a part of the new contents and nothing of the old
  (`old_contents_are_lost`).
- **C106** `mod.rs:713`: once a second all keys up to Ctrl+x are thrown away while a line is evaluated (`keys_are_lost`). `mod.rs:255-259`: Ctrl+x pressed so soon after Enter that it is taken
  together with it does nothing, and the line is not aborted (`abort_is_lost`).
- **C107** `bat.rs:268-272`, `io.rs:326-328`: nothing keeps two items from writing to the same file at the same time; the file may then hold a mixture that none of them saved
  (`same_file_is_mixed`).
- **C108** `io.rs:326-330`: saving does not remove the file from the cache: a file that was opened, then saved, gives its old contents when opened again, until the watcher has made a turn
  (`saved_is_not_opened`).
- **C109** `io.rs:106`: going back to the root directory makes the tab's path empty, and listing an empty path is an error: `cd d`, `cd ..`, `ls` fails (`ls_fails_in_the_root`). `io.rs:104`: `ls`
  does not look at the root, `open` (`io.rs:30-34`) gives the system a path without it, and `save` refuses everything below an absolute root (`places_differ`).
- **C110** `ogma-ls/server/mod.rs:132-134`: a request without a handler is logged and never answered; `initialize.rs:26` announces `textDocument/definition`, for which there is no handler
  (`announced_but_not_answered`). `mod.rs:140`: notifications are carried out in any order, and `workspace.rs:48` ignores edits of a document that is not there: an edit that overtakes the
  opening of its document is lost, and every later one waits for it forever (`change_overtakes_open`). Likewise a save that overtakes an edit
  loads the definitions of the text before the edit (`save_overtakes_change`).
