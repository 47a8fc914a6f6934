# A Lean 4 model of rveen/ogdl

## Method

The Go package is modelled function by function as total, computable Lean
functions (`lean/Verif/Model/*.lean`).  Every definition cites the file and
lines it models.  Property theorems live in `lean/Verif/Props/*.lean`, helper
lemmas in `lean/Verif/Lemmas/*.lean`, small independent specifications in
`lean/Verif/Spec/*.lean`.

Modelling conventions

* bytes are `UInt8`, a Go `string`/`[]byte` is `List UInt8`;
* `*Graph` is the inductive type `Graph` with an explicit `nil` constructor, so a
  nil pointer inside `Out` is representable (`Model/Heap.lean` has a second model of
  graph.go in which nodes have addresses and slices have backing arrays);
* `interface{}` is the inductive type `Val`;
* a Go run-time panic is the value `Res.panic`, a loop that does not end within
  its fuel is `Res.oof` ("out of fuel"); termination is then a theorem ("with
  this much fuel the result is never `oof`"), non-termination is the theorem
  "for every fuel the result is `oof`";
* standard library functions whose code is outside the repository (float
  formatting/parsing/arithmetic, Unicode tables above Latin-1, regexp, sort,
  JSON/XML tokenisers, reflection calls) are fields of a parameter structure
  `Ext`, over which every theorem quantifies;
* the lexer-based parsers are written in a free monad `Prog` over the lexer's
  operations (Byte, UnreadByte, Rune, UnreadRune) so that the same parser code
  runs on an abstract cursor and on the 4096-byte buffered lexer.

## Per property plan

| id | modelled | proof |
|----|----------|-------|
| C01, C02, C05 | binary.go writer, reader, event handler | induction on the tree; the reader on `bin g ++ rest` emits the preorder and leaves `rest` |
| C03 | newVarInt, varInt | arithmetic case split on the byte classes; the 4-byte class is refuted with a witness |
| C04 | reader with fuel | negation: a truncated text node runs out of every fuel; partial: inputs on which it ends; exactly those that do not end inside a text, by an analysis of the stream node by node (`Spec.CutInText`) |
| C06-C08 | log.go over a byte-list file | induction over the history; truncation at any offset |
| C09, C11, C12 | _text, lexer, Ogdl/tree/line | induction on the tree, over the abstract cursor |
| C10 | same | progress measure: remaining bytes; level/max invariant for Tree |
| C13 | event.go Tree on a node heap | invariant relating slots to the current branch |
| C14, C15, C53 | buffered lexer | simulation between buffer and cursor; negations with concrete readers |
| C16-C21 | Path, getPath, set, typed getters | induction over the path |
| C22-C31 | graph.go, sort.go, Find | structural induction; a pointer heap for C24 |
| C22, C23, C25 with any contents | Equals, Copy, Delete and Go's `==` | structural induction; `==` on floats, pointers and other types is a parameter (Spec/Equal.lean) |
| C117 | Int64, Float64, Bool, String, StringTxt and StringCSV with a default | case analysis of the value against Spec/Defaults.lean; witnesses for the texts |
| C29 (Merge) | graph.go Merge | an inductive relation between receiver, source and result (Spec/Merge.lean); the function computes it and it always has a result |
| C32-C37, C54 | _ast, eval.go, gettypes.go | induction over token list / expression |
| C37, C97 (indexes) | assignments to `a.b[3]` (eval.go assign, graph.go set) | setPath_index and follow along steps; the place, the other places and unrelated paths; the update of a missing place is refuted |
| C38-C42 | template.go | induction over template nodes |
| C43, C44 | encoding.go after tokenising | structural induction; negations with witnesses |
| C45 | schema.go | induction on the schema |
| C46, C47 | _text, list views | structural induction; negations with witnesses |
| C48-C50, C68-C70 | ogdlrf client/server logic as state machine over read results | induction over chunk lists / attempts; runs of client and server joined |
| C51 | gxml.FromXML after tokenising | induction over balanced token sequences |
| C52 | ParseInt, Sprint | digit-list induction |
| C54, C76 | isInteger, number, Scalar | case analysis of the text; the decimal lemmas of C52 |
| C55 | flow.go and template.go on the cursor, with fuel | progress measure (remaining bytes); stuck states for the negation |
| C56, C64, C66 | block.go and lexer.go on the cursor | exact runs of `line` on the inserted lines, then the induction of C09 |
| C57, C58 | evalExpression on negations and groups | evaluation rules (`Evals`), negations with witnesses |
| C59, C74, C75 | function.go with reflection as a parameter (`Callable`) | the text `f(a, b, ..)` is parsed, then evaluation by induction over the arguments |
| C60-C62 | template text as a list of items (`Spec.Items`) | parser and processor by induction over the items, in both directions |
| C63 | ScalarType | same induction as C09 with a relation between the two results |
| C65 | Text | case analysis of the content |
| C67 | FromJSON then JSON on tokenised documents | induction over members; negations with witnesses |
| C71-C73 | getPath, evalPath, set with indexes and selectors | induction over the steps of the path; the text of the path is parsed (`stepsText`) |
| C77 | graph.go on the pointer heap | an invariant (every backing array has one owner) kept by every operation of every history |
| C78, C79 | graph.go on the pointer heap and on trees | refinement: memory holds a tree (`Spec.Holds`), each method of the heap is simulated by the method on trees; then induction over the history; a witness for Merge |
| C80, C81 | ogdlrf protocol 1: the binary reader over a buffered connection | simulation of the reader over a list of bytes, for every segmentation; negations with witnesses |
| C82 | gxml.Simplify on the graphs of documents | structural induction over the document |
| C83 | Html | structural induction; negations with witnesses |
| C84-C88 | the programs in cmd/ | the round trip of C09, Get of C17, the documents of C44 and C51; the data files of gtemplate by induction; negations with witnesses |
| C89, C93, C94 | log.go as goroutines on a file with handles; a crash keeps at least what was synchronised | an invariant over every schedule; rely and guarantee for readers and writers; negations with witness schedules |
| C90, C91 | the server and the client as goroutines on connections | every schedule leaves each connection where its own steps would have; negations with witness schedules |
| C92 | JSON as a goroutine on a shared root | an invariant over every schedule; negations with witness schedules |
| C95, C96 | calc and compare on floats, which are 64 bits with operations given by the environment | case analysis on the types of the operands; negations with witnesses |
| C97 | assign on contexts without the path | getPath on names gives the specification `lookup`; a witness context |
| C98 | the getters on explicit memory (`Model/HeapRead.lean`), where a nil slice and an empty one differ | refinement to the getters on trees along the histories of C78; an invariant (no empty slice that is not nil) for histories without removals; a witness history |
| C99 | `Eval`, `Get`, functions and operators on explicit memory (`Model/HeapEval.lean`) | simulation of the evaluator on trees: memory shows a tree (nodes may be shared), every step of the evaluator keeps that, no old node is written; by induction on the fuel of the evaluator, and along the histories of C78 |
| C100 | the same, with `assign` and `set` | refinement of histories with evaluations and assignments between the operations of C78; results do not depend on the fuel once it suffices, so that the steps can be put together; witness histories for graphs as values |
| C101 | `Get` and `Eval` of a path on explicit memory, then histories on the result | the path leads to a pointer inside the graph; the rest of the graph is a frame around it that every run on the node keeps (`Leads`), and runs that only touch their own nodes are those of C100; witness for an index, and for an index at the end the same for the subnode of the result; one index or selector inside a path: the new node has pointers to the same subnodes (`get_through`, `get_select`) |
| C102 | the parser programs, `Tree`, `ast`, `flow`, the binary reader and `toGraph` | a predicate on parser programs (`PutsB`): every item they add satisfies P as long as the bytes read satisfy B, for any machine; cells of `Tree` only point forward, so reading them back gives no nil; the rest by induction. With B = not `=` it gives C36 and C99 for texts |
| C103 | `evalExpression` on a node without subnodes, `isNumber`, `number`, `isInteger` | case analysis over the character classes, each characterised by a separate predicate in `Spec/Constant.lean` |
| C104 | `Process` on explicit memory (`Model/HeapTemplate.lean`) | simulation of `process` on trees: the invariant `Live` says which nodes are the root of the context and loop variables, that all other nodes below the context stay, and that a loop variable shows the element it is bound to; by induction on the template and on the list a loop walks through. With assignments to names (`Neat`): all subnodes of the root are changeable nodes of their own, no content is a graph, and the list of a loop stays apart from them |
| C105 | `Process` as a goroutine (`Model/ConcTemplate.lean`): each call of a method on a graph, each load and store of a slice is one step | rely-guarantee: every node is shared or owned by one goroutine; each goroutine changes only nodes it owns and looks only at those and at shared ones, and simulates `process` on trees whatever the others do in between (an inductive predicate over the rest of the run, so that it also ends); the contexts made by the client establish the ownership |
| C106 | `Call` in Model/Rf and Model/Rf1 | cases over one attempt, induction over the loop that reads the body and over the attempts; an empty read for the negation |
| C107 | `FromBinaryBufioReader`, `FromBinaryFile` (`Model/BinStream.lean`) on the reader of Model/Rf1 | simulation of the buffered reader by the list of bytes that is left, induction over the graphs |
| C108 | `Get` and `Eval` of one path | both walks against the specification of paths (`follow`, `reach`), by induction on the path; refuted by evaluation for an index before other elements |
| C109 | `Process`, `Eval`, `set`, `Delete` on trees | the relation `Outside` is a preorder; every function of the evaluator preserves it (induction on fuel with an abstract predicate), and so do loops and branches; refuted by evaluation for `$(1 = 2)` |
| C110 | `FromBinary` and the event handler's `Tree` with any levels | the stream as an inductive list of nodes (`Spec.Decodes`), each form of number, chunk and node run by the reader; `Tree` on its node heap equals `Spec.below`, by an invariant on the slots; more iterations make no difference |
| C111 | `Log.Get` and `GetBinary` on any file | the header that is missing (`Spec.NoHeader`) and the record that is there (`Spec.HasRecord`, on top of `Spec.Decodes`) as cases that cover every file; the byte count of the reader tracked through every form of node; the loop of `GetBinary` compared with that of `parse` |
| C112 | `FromBinary` and `Log.Get` on the beginning of a stream | `Spec.FirstOf` says what the first nodes are; by induction on `Spec.Decodes`, with a case for each place the cut can fall; for graphs the first nodes in the order of the tree are the nodes of a tree |
| C113 | A client that calls methods of `Lexer` one after the other on the 4096-byte buffer (`newLexerCalls`) | `Spec.Lexing.Scans` says of each method what it returns of the bytes before it and what it leaves; each method on the cursor by induction on its loop, then on the buffer with `SafeC.agree`; refuted for `Break` (a lone CR is lost), `Number` (a sign without a number is lost) `SpaceMax` (mixed blanks, and zero) and `Quoted` (a quoted text that does not end is lost). `Token8` too, for texts that fit the buffer (`newLexerWords`): the longest word in UTF-8, from the inverse of `utf8.DecodeRune` on valid encodings. `Rune` and `UnreadRune` are in C115 |
| C114 | `Ogdl`, `tree` and `line` (block.go), the events and the tree built of them, on the 4096-byte buffer | `Spec.Indent.Rows` reads a text as lines with indentation and values; `trees` nests them (each line takes the more indented lines that follow), `items` gives each line its level.  `tree(ns)` reads the lines up to the first one indented less than `ns`, by induction on the number of lines; then `trees` and `items` are shown to agree |
| C115 | A client that calls `Rune`, `PeekRune` and `UnreadRune` on the 4096-byte buffer (`newLexerRunes`) | `Spec.LexRunes.Runes` says what the runes of a text are, `walk` is a cursor over them; the place in the buffer is the sum of the sizes of the runes before it, kept by induction on the calls, with the window of the buffer on the text for long texts (`C115_long_partial`). Refuted for the end of the text, texts of 4096 bytes, and a rune across the end of the buffer |
| C116 | A client that calls `Byte`, `UnreadByte`, `Rune` and `Error` (`errCalls`); `Buf` with the field `err`, of which only is modelled whether it is nil | Invariant over all calls: an error means that nothing is left in the reader. What `Error` returns after all bytes have been read is worked out from the places at which the buffer is refilled, by induction over the bytes. Refuted for texts of less than 2048 bytes (the end is returned at once) and for most longer ones (never) |

Where the code violates a property, the negation is proved with a concrete
witness (`..._refuted`) and the strongest true part is kept as `..._partial`.
A hypothesis that occurs often is `Spec.Fits` (Spec/Fits.lean): `Rune` does not check
for the end of the stream, so paths, expressions and templates are read as written
only if the text is shorter than 4095 bytes or meets a condition on a few of its bytes.

## Trusted base

* Lean's kernel (4.33.0), which checks every proof.  No module of Mathlib is imported.  The
  tactic `kernel_rfl` (Lemmas/KernelRfl.lean) produces `Eq.refl` and leaves the comparison to
  the kernel.
* The axioms `propext`, `Classical.choice` and `Quot.sound` of Lean's core library; the
  last section lists them for each theorem.  There are no other axioms, no `sorry`, and no
  `native_decide` or `bv_decide`.
* That the definitions in `lean/Verif/Model` describe the Go code.  They were written by
  reading the code; nothing checks this mechanically.  Each definition cites its source.
* That the theorems and the definitions in `lean/Verif/Spec` say what the properties say
  in English.  The mutants in `seeded/` are a test of this.
* Go semantics as encoded in `Model/Go.lean`, `Model/Val.lean` and `Model/Heap.lean`:
  wrapping 64-bit integers, slices and `append`, `==` on interfaces, UTF-8 decoding,
  `strconv.ParseInt`, `fmt.Sprint` of integers.

## What is modelled

| file | modelled in | remarks |
|------|-------------|---------|
| graph.go | Model/Graph, Text, Eval (Get, Set), Heap | tree model, and a pointer model for Add, AddNodes, Copy, Clone, Node, NodeOrNew, NodeSet, Create, GetAt, Delete, DeleteAt, Clear, Set, Substitute, Merge (Heap), Len, Equals and the typed getters (HeapRead) |
| gettypes.go | Model/Graph, Val, Scalar, Eval, HeapRead | `Value`, `ThisValue` (reflection), `_show` and `_typeOf` are for tests only and left out |
| binary.go | Model/Binary, Rf1, BinStream | one reader over a list of bytes, one with a buffer |
| log.go | Model/Log | file operations do not fail; torn writes are truncations |
| lexer.go | Model/Lexer on Model/Prog; Model/Buffer | every method; the buffer with any `io.Reader` |
| block.go, parser.go | Model/Block, Buffer | |
| event.go | Model/Event | |
| flow.go | Model/Flow | |
| expression.go | Model/Ast | |
| eval.go, function.go | Model/Eval; HeapEval (explicit memory) | reflection is a parameter; called functions do not change the graph |
| template.go | Model/Flow (text), Template; HeapTemplate (explicit memory), ConcTemplate (goroutines) | |
| encoding.go | Model/Json | after/before encoding/json, which is a parameter |
| schema.go, sort.go | Model/Schema, Sort | `sort.Sort` is any algorithm that sorts |
| html.go | Model/Html | |
| ogdlrf | Model/Rf (protocol 2), Rf1 (protocol 1) | connections are lists of segments and of results of writes |
| io/gxml/xml.go | Model/Xml | after encoding/xml |
| log.go, ogdlrf, JSON with goroutines | Model/Conc | atomic steps (one call on a file or connection, one load or store of the root) under every schedule |
| template.go with goroutines | Model/ConcTemplate | the evaluation of one expression, and each other call on a graph, is one step |
| cmd/ | Model/Cmd | what the four programs print |

Not modelled: the flags, error messages and exit codes of the programs in cmd/, opening and closing of files, sockets
and deadlines (but for the way a connection ends, which is a parameter in Model/Rf1), logging, the accept loop of a server.  Goroutines are modelled for logs, connections,
`JSON` (Model/Conc) and `Process` (Model/ConcTemplate); memory is taken to be sequentially consistent, and the table of handlers of a server is not changed while serving.

Limits of the tree model, outside of `Model/Heap.lean`, `Model/HeapRead.lean`, `Model/HeapEval.lean` and `Model/HeapTemplate.lean`:

* a graph whose nodes are shared or cyclic is not representable; the properties C24 and C77
  and everything about aliasing are proved on the heap, and C78 proves that the heap and the
  tree model agree for clients that do not share nodes;
* the evaluator and `Process` on trees: a value that is a graph is copied where the code shares its nodes. C104
  proves that this makes no difference to templates without assignments (or with assignments of numbers, texts
  and operations to names) and without loops over `_this` or a group, and shows a difference otherwise (C40 to C42, C60 and C61 are about trees). C99 proves that this makes
  no difference to evaluations, C100 where it makes one to assignments;
* in `Eval` and `Template`, a walk that has reached a subnode goes on with the subnode as it
  was, also if the expression has assigned to it in between; a body of a loop that removes
  the loop variable from the context (as `$(1=2)` does, which clears it) and creates a node
  of the same name gets its values set in that node, where the code sets them in the
  removed one;
* an empty slice `Out` is taken to be nil where the code compares with nil (`Scalar`); C98
  says where that makes a difference.

## Axioms of each theorem

Generated by tools/axioms.py from `#print axioms`.

none:
`C65_quotes_refuted`, `C83_quotes_refuted`, `C102_json`

propext:
`C01_needs_first_byte`, `C07_refuted`, `C13_jump_loses_node`, `C21_string_partial`, `C21_int_partial`, `C21_bytes_partial`, `C21_bool_partial`, `C21_empty`, `C21_empty_refuted`, `C23_clone_same`, `C26_nil_receiver`, `C27_not_found`, `C29_merge_disjoint_partial`, `C31_find`, `C43_unchanged_refuted`, `C44_partial`, `C44_array_refuted`, `C44_null_refuted`, `C46_text_panics_refuted`, `C46_returns_partial`, `C70_close_partial`, `C70_refuted`, `C76_refuted`, `C81_closed_refuted`, `C82_panic_refuted`, `C89_refuted`, `C90_refuted`, `C91_refuted`, `C92_alone`, `C92_refuted`, `C93_unsynced`, `C94_refuted`, `C98_unchanged`, `C113_quoted_refuted`, `C113_quoted`, `C113_typed`, `C115_end_refuted`, `C116_early_refuted`, `C117_int_refuted`, `C117_bool`, `C117_string_partial`

Quot.sound, propext:
`C04_refuted`, `C08_append_only`, `C08_memory`, `C16_refuted`, `C18_refuted`, `C19_refuted`, `C20_refuted`, `C21_float_partial`, `C22_returns`, `C22_refuted`, `C23_clone_refuted`, `C23_copy_exact_partial`, `C23_copy_partial`, `C23_copy_refuted`, `C24_content_refuted`, `C25_refuted`, `C26_list_operations`, `C27_found`, `C27_cases`, `C28_substitute`, `C29_refuted`, `C29_exact_partial`, `C29_keeps_partial`, `C29_over_partial`, `C32_refuted`, `C37_refuted`, `C38_refuted`, `C40_refuted`, `C41_refuted`, `C42_refuted`, `C43_total`, `C43_unchanged`, `C43_nil_refuted`, `C43_refuted`, `C43_name_refuted`, `C45_panic_refuted`, `C47_csv_exact`, `C47_list_views_partial`, `C47_refuted`, `C49_server_partial`, `C49_server_refuted`, `C49_server_header_refuted`, `C49_client_refuted`, `C51_document`, `C52_refuted`, `C54_partial`, `C54_eval_partial`, `C54_refuted`, `C55_refuted`, `C59_refuted`, `C60_refuted`, `C61_refuted`, `C61_dollar`, `C67_single_refuted`, `C67_types_refuted`, `C67_member_array_refuted`, `C67_array_refuted`, `C67_scalar_refuted`, `C69_refuted`, `C69_once_partial`, `C69_attempts_partial`, `C70_exact`, `C70_history_partial`, `C72_refuted`, `C73_middle_refuted`, `C73_path_refuted`, `C79_merge_refuted`, `C81_deadline_refuted`, `C83_links_refuted`, `C83_markup_refuted`, `C89_alone`, `C89_adds_partial`, `C92_partial`, `C94_hang_refuted`, `C98_refuted`, `C98_this_refuted`, `C100_refuted`, `C100_cycle_refuted`, `C101_refuted`, `C104_sharing_refuted`, `C104_assign_refuted`, `C105_alone`, `C106_partial`, `C106_protocol1`, `C106_refuted`, `C113_nothing_partial`, `C113_spaceMax_zero_refuted`, `C113_spaceMax_partial`, `C115_again_refuted`, `C115_cut_refuted`, `C116_once`, `C116_partial`, `C116_start`, `C117_float`, `C117_string_refuted`

Classical.choice, Quot.sound, propext:
`C01_binary_roundtrip_text`, `C02_binary_roundtrip`, `C03_levels_partial`, `C03_four_byte_class`, `C03_refuted`, `C04_returns_partial`, `C04_exact`, `C05_self_delimiting`, `C06_get_added`, `C06_enumerate`, `C07_getBinary_partial`, `C08_torn_tail`, `C09_round_trip_partial`, `C09_exact_partial`, `C09_top_level_spaces_refuted`, `C09_slash_quote_refuted`, `C09_backslash_refuted`, `C09_backtick_refuted`, `C10_returns`, `C10_linear`, `C11_grammar`, `C11_any_style`, `C11_any_width`, `C11_refuted`, `C12_inline_nested_partial`, `C13_tree_of_events`, `C13_any_levels`, `C14_only_delivered`, `C14_chunks_partial`, `C14_one_byte_reads_refuted`, `C14_data_with_eof_refuted`, `C15_cursor`, `C15_sequential`, `C16_partial`, `C16_elements_partial`, `C17_partial`, `C17_pure_partial`, `C17_lookup_partial`, `C17_refuted`, `C18_store_partial`, `C18_partial`, `C18_graph_partial`, `C19_partial`, `C19_along_path_partial`, `C19_idempotent_partial`, `C20_partial`, `C20_getters_partial`, `C21_refuted`, `C21_float_refuted`, `C22_exact`, `C22_equivalence`, `C22_equals_same_tree_partial`, `C22_equivalence_partial`, `C23_clone_exact`, `C23_clone_equals`, `C24_same`, `C24_independent`, `C24_original`, `C24_clone`, `C24_returns`, `C25_exact`, `C25_delete_partial`, `C30`, `C30_int`, `C30_returns`, `C32_partial`, `C32_value_partial`, `C33_partial`, `C33_text_partial`, `C33_zero`, `C33_refuted`, `C34`, `C34_texts`, `C35`, `C36`, `C36_get`, `C36_ends`, `C36_text`, `C36_get_text`, `C37_index_partial`, `C37_index_update_partial`, `C37_partial`, `C37_update_partial`, `C38_partial`, `C39_partial`, `C40_partial`, `C40_empty`, `C41_if`, `C41_partial`, `C41_top`, `C42_endless_refuted`, `C42_memory_partial`, `C42_assign_memory_partial`, `C42_partial`, `C43_partial`, `C45_partial`, `C45_binary_refuted`, `C46_text_panic_iff_partial`, `C46_show_panic_iff_partial`, `C48_route`, `C49_client_partial`, `C50_attempts`, `C50_protocol1`, `C51_cut`, `C52_partial`, `C52_binary_partial`, `C53_partial`, `C53_refuted`, `C55_partial`, `C55_letters_partial`, `C56_indented_partial`, `C56_fillers_partial`, `C56_blank_line_refuted`, `C57_partial`, `C57_refuted`, `C58_panics`, `C58_partial`, `C58_refuted`, `C59_partial`, `C60_partial`, `C61_value`, `C61_text`, `C61_missing`, `C62_partial`, `C63_one_value`, `C63_typed_tree_partial`, `C63_quoted_partial`, `C64_block_partial`, `C64_nested_refuted`, `C65_text_partial`, `C65_unquoted`, `C66_comment_partial`, `C66_any_line_partial`, `C66_crlf_refuted`, `C67_flat_partial`, `C68_call_partial`, `C71_partial`, `C71_missing`, `C71_refuted`, `C72_partial`, `C72_reserved_partial`, `C73_set`, `C73_partial`, `C73_refuted`, `C74_partial`, `C74_refuted`, `C75_partial`, `C75_refuted`, `C76_partial`, `C76_this`, `C77_local`, `C77_shared`, `C78_values`, `C78_others`, `C79_argument_partial`, `C80_server_partial`, `C80_together_refuted`, `C80_call`, `C81_length_partial`, `C82_partial`, `C82_unchanged_partial`, `C82_lost_refuted`, `C83_lines_partial`, `C83_links_partial`, `C83_returns`, `C84_partial`, `C84_refuted`, `C85_partial`, `C85_refuted`, `C86_partial`, `C86_refuted`, `C87_partial`, `C87_refuted`, `C88_partial`, `C88_id_partial`, `C88_refuted`, `C89_readers_partial`, `C90_partial`, `C91_partial`, `C93_durable`, `C94_partial`, `C94_later_partial`, `C94_cut`, `C95_partial`, `C95_texts`, `C95_zero`, `C95_word`, `C95_left`, `C95_refuted`, `C96_partial`, `C96_integral`, `C96_refuted`, `C97_index_refuted`, `C97_partial`, `C97_empty`, `C97_refuted`, `C98_partial`, `C98_equals`, `C99_partial`, `C99_sequence_partial`, `C99_text_partial`, `C100_partial`, `C101_partial`, `C101_index_partial`, `C101_through_partial`, `C101_selector_partial`, `C102`, `C102_string`, `C102_types`, `C102_path`, `C102_expression`, `C102_template`, `C102_binary`, `C103`, `C103_number`, `C104_partial`, `C104_text`, `C104_refuted`, `C104_assign_partial`, `C104_assign_text`, `C105_partial`, `C105_refuted`, `C107`, `C107_file`, `C108_partial`, `C108_refuted`, `C109_partial`, `C109_text_partial`, `C109_expression_partial`, `C109_node_partial`, `C109_refuted`, `C110`, `C110_nodes`, `C110_order`, `C111_get`, `C111_getBinary`, `C111_returns`, `C111_progress`, `C111_same`, `C112`, `C112_written`, `C113`, `C113_returns`, `C113_one`, `C113_break_refuted`, `C113_number_refuted`, `C113_spaceMax_refuted`, `C113_words_partial`, `C113_word_one`, `C113_word_invalid`, `C114_partial`, `C114_levels`, `C114_less_refuted`, `C114_mixed_refuted`, `C114_order_partial`, `C115_one`, `C115_partial`, `C115_long_partial`, `C115_all_partial`, `C116_end`, `C116_never`, `C116_never_refuted`, `C117_int_partial`
