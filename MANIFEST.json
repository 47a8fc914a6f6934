{
 "claims": [
  {
   "property": "C01",
   "status": "proved",
   "theorems": [
    "Ogdl.C01_binary_roundtrip_text",
    "Ogdl.C01_needs_first_byte"
   ],
   "note": ""
  },
  {
   "property": "C02",
   "status": "proved",
   "theorems": [
    "Ogdl.C02_binary_roundtrip"
   ],
   "note": ""
  },
  {
   "property": "C03",
   "status": "partial",
   "theorems": [
    "Ogdl.C03_levels_partial",
    "Ogdl.C03_four_byte_class",
    "Ogdl.C03_refuted"
   ],
   "note": "Levels below 2^21 are proved; the four-byte class is refuted (binary.go:189 writes 0xff)."
  },
  {
   "property": "C04",
   "status": "partial",
   "theorems": [
    "Ogdl.C04_refuted",
    "Ogdl.C04_returns_partial",
    "Ogdl.C04_exact"
   ],
   "note": "Refuted for streams that end inside a text node (infinite loop); proved: no panic, and it returns on exactly the streams that do not (C04_exact)."
  },
  {
   "property": "C05",
   "status": "proved",
   "theorems": [
    "Ogdl.C05_self_delimiting"
   ],
   "note": ""
  },
  {
   "property": "C06",
   "status": "proved",
   "theorems": [
    "Ogdl.C06_get_added",
    "Ogdl.C06_enumerate"
   ],
   "note": ""
  },
  {
   "property": "C07",
   "status": "partial",
   "theorems": [
    "Ogdl.C07_getBinary_partial",
    "Ogdl.C07_refuted"
   ],
   "note": "Bytes are exact; the second result is the record length, not the next position (refuted)."
  },
  {
   "property": "C08",
   "status": "proved",
   "theorems": [
    "Ogdl.C08_torn_tail",
    "Ogdl.C08_append_only",
    "Ogdl.C08_memory"
   ],
   "note": ""
  },
  {
   "property": "C09",
   "status": "partial",
   "theorems": [
    "Ogdl.C09_round_trip_partial",
    "Ogdl.C09_exact_partial",
    "Ogdl.C09_top_level_spaces_refuted",
    "Ogdl.C09_slash_quote_refuted",
    "Ogdl.C09_backslash_refuted",
    "Ogdl.C09_backtick_refuted"
   ],
   "note": "Refuted for contents Text does not quote (top-level spaces, lone backslash, leading backtick, backslash before a quote). Proved for all other trees, with empty nodes transparent; texts without 2048 blanks in a row."
  },
  {
   "property": "C10",
   "status": "proved",
   "theorems": [
    "Ogdl.C10_returns",
    "Ogdl.C10_linear"
   ],
   "note": ""
  },
  {
   "property": "C11",
   "status": "partial",
   "theorems": [
    "Ogdl.C11_grammar",
    "Ogdl.C11_any_style",
    "Ogdl.C11_any_width",
    "Ogdl.C11_refuted"
   ],
   "note": "Proved for all trees and all indentations below 2048 columns (the lexer cannot step back further); refuted for an indentation of 4095 blanks (C11_refuted)."
  },
  {
   "property": "C12",
   "status": "partial",
   "theorems": [
    "Ogdl.C12_inline_nested_partial"
   ],
   "note": "Proved for texts without 2048 blanks in a row, so for chains of fewer than 2048 words."
  },
  {
   "property": "C13",
   "status": "proved",
   "theorems": [
    "Ogdl.C13_tree_of_events",
    "Ogdl.C13_jump_loses_node",
    "Ogdl.C13_any_levels"
   ],
   "note": "C13_any_levels gives the tree for every history, whatever its levels."
  },
  {
   "property": "C14",
   "status": "partial",
   "theorems": [
    "Ogdl.C14_only_delivered",
    "Ogdl.C14_chunks_partial",
    "Ogdl.C14_one_byte_reads_refuted",
    "Ogdl.C14_data_with_eof_refuted"
   ],
   "note": "Refuted: a reader that delivers one byte per call, or data together with io.EOF, loses input. Proved: the graph depends only on the bytes delivered, and every way of filling the reads gives the same graph."
  },
  {
   "property": "C15",
   "status": "proved",
   "theorems": [
    "Ogdl.C15_cursor",
    "Ogdl.C15_sequential"
   ],
   "note": ""
  },
  {
   "property": "C16",
   "status": "partial",
   "theorems": [
    "Ogdl.C16_partial",
    "Ogdl.C16_elements_partial",
    "Ogdl.C16_refuted"
   ],
   "note": "Proved for texts that fit the buffer (Spec.Fits), for all forms of path elements; refuted for a name of 4096 letters, on which NewPath never returns."
  },
  {
   "property": "C17",
   "status": "partial",
   "theorems": [
    "Ogdl.C17_partial",
    "Ogdl.C17_pure_partial",
    "Ogdl.C17_lookup_partial",
    "Ogdl.C17_refuted"
   ],
   "note": "Proved for all graphs without functions in them and all paths that fit the buffer (Spec.Fits); panics included. Refuted for longer paths: Get of `b` and a name of 4094 letters does not return."
  },
  {
   "property": "C18",
   "status": "partial",
   "theorems": [
    "Ogdl.C18_store_partial",
    "Ogdl.C18_partial",
    "Ogdl.C18_graph_partial",
    "Ogdl.C18_refuted"
   ],
   "note": "Proved for all graphs of data (no functions, no nil subnodes), all values and all paths that fit the buffer (Spec.Fits). Refuted for a name of 4096 letters: the call does not return."
  },
  {
   "property": "C19",
   "status": "partial",
   "theorems": [
    "Ogdl.C19_partial",
    "Ogdl.C19_along_path_partial",
    "Ogdl.C19_idempotent_partial",
    "Ogdl.C19_refuted"
   ],
   "note": "Same restrictions as C18. Refuted for a name of 4096 letters: the call does not return."
  },
  {
   "property": "C20",
   "status": "partial",
   "theorems": [
    "Ogdl.C20_partial",
    "Ogdl.C20_getters_partial",
    "Ogdl.C20_refuted"
   ],
   "note": "Same restrictions as C18. Refuted for a name of 4096 letters: the call does not return."
  },
  {
   "property": "C21",
   "status": "partial",
   "theorems": [
    "Ogdl.C21_string_partial",
    "Ogdl.C21_int_partial",
    "Ogdl.C21_bytes_partial",
    "Ogdl.C21_float_partial",
    "Ogdl.C21_bool_partial",
    "Ogdl.C21_refuted",
    "Ogdl.C21_float_refuted",
    "Ogdl.C21_empty",
    "Ogdl.C21_empty_refuted"
   ],
   "note": "String, Bytes and Int64 are proved for all graphs and all non-empty paths; with the empty path Get finds nothing (refuted). Float64 is proved if numbers read back from their text, and refuted for unsigned integers above the largest int64. Bool is refuted for numbers and proved for texts, byte slices and booleans."
  },
  {
   "property": "C22",
   "status": "partial",
   "theorems": [
    "Ogdl.C22_exact",
    "Ogdl.C22_equivalence",
    "Ogdl.C22_returns",
    "Ogdl.C22_equals_same_tree_partial",
    "Ogdl.C22_equivalence_partial",
    "Ogdl.C22_refuted"
   ],
   "note": "Refuted when contents are []byte (== panics) or NaN, and for nil graphs. For graphs with any contents: Equals returns true exactly if the shapes are the same and the contents are equal in Go at every place (C22_exact), it is symmetric and transitive (C22_equivalence), and it returns if the contents of the receiver can be compared (C22_returns). Reflexive, and the same as identity of the trees, for contents that are nil, texts, booleans and integers."
  },
  {
   "property": "C23",
   "status": "partial",
   "theorems": [
    "Ogdl.C23_clone_exact",
    "Ogdl.C23_clone_refuted",
    "Ogdl.C23_copy_exact_partial",
    "Ogdl.C23_clone_same",
    "Ogdl.C23_clone_equals",
    "Ogdl.C23_copy_partial",
    "Ogdl.C23_copy_refuted"
   ],
   "note": "Clone gives the same tree, and a clone Equals the graph exactly if its contents are equal to themselves (C23_clone_exact; refuted for []byte); Copy drops nodes with nil content (refuted). What Copy adds is proved exactly for contents that are not graphs (C23_copy_exact_partial)."
  },
  {
   "property": "C24",
   "status": "proved",
   "theorems": [
    "Ogdl.C24_same",
    "Ogdl.C24_independent",
    "Ogdl.C24_original",
    "Ogdl.C24_clone",
    "Ogdl.C24_returns",
    "Ogdl.C24_content_refuted"
   ],
   "note": "On memory with addresses and backing arrays, for every growth policy of append and every history of operations of two clients. Graphs as contents are shared (C24_content_refuted), as documented."
  },
  {
   "property": "C25",
   "status": "partial",
   "theorems": [
    "Ogdl.C25_exact",
    "Ogdl.C25_delete_partial",
    "Ogdl.C25_refuted"
   ],
   "note": "Refuted for two []byte contents (panic). C25_exact: for contents of all types, exactly the subnodes that are equal in Go are removed, and it panics exactly if a comparison does."
  },
  {
   "property": "C26",
   "status": "proved",
   "theorems": [
    "Ogdl.C26_list_operations",
    "Ogdl.C26_nil_receiver"
   ],
   "note": "GetAt on a nil graph panics (C26_nil_receiver)."
  },
  {
   "property": "C27",
   "status": "proved",
   "theorems": [
    "Ogdl.C27_found",
    "Ogdl.C27_not_found",
    "Ogdl.C27_cases"
   ],
   "note": "For all graphs without nil subnodes and all values."
  },
  {
   "property": "C28",
   "status": "proved",
   "theorems": [
    "Ogdl.C28_substitute"
   ],
   "note": ""
  },
  {
   "property": "C29",
   "status": "partial",
   "theorems": [
    "Ogdl.C29_refuted",
    "Ogdl.C29_merge_disjoint_partial",
    "Ogdl.C29_exact_partial",
    "Ogdl.C29_keeps_partial",
    "Ogdl.C29_over_partial"
   ],
   "note": "Refuted: the key used is the text of the first subnode, not of the node. Proved, for all graphs without nil subnodes: the exact result of Merge (C29_exact_partial, against Spec/Merge.lean), that it returns, keeps the nodes of the receiver in order, leaves those not named by a value of the source unchanged and adds only nodes of the source (C29_keeps_partial), and that the subnodes of the node named are replaced (C29_over_partial); disjoint keys are appended. Missing: one node per key, which is false."
  },
  {
   "property": "C30",
   "status": "proved",
   "theorems": [
    "Ogdl.C30",
    "Ogdl.C30_int",
    "Ogdl.C30_returns"
   ],
   "note": "Sorting uses any correct sort routine; the keys are computed once, which is the same when the sort field contains no assignment."
  },
  {
   "property": "C31",
   "status": "proved",
   "theorems": [
    "Ogdl.C31_find"
   ],
   "note": ""
  },
  {
   "property": "C32",
   "status": "partial",
   "theorems": [
    "Ogdl.C32_partial",
    "Ogdl.C32_value_partial",
    "Ogdl.C32_refuted"
   ],
   "note": "Proved for expressions of any length, with argument lists of any nesting, that fit the buffer (Spec.Fits); arguments of a call that is the only operand are not grouped (C59_refuted). The value of the grouping is proved for integers, floats, texts, paths and the operators on them. Refuted for a path of 4096 letters: reading it does not end."
  },
  {
   "property": "C33",
   "status": "partial",
   "theorems": [
    "Ogdl.C33_partial",
    "Ogdl.C33_text_partial",
    "Ogdl.C33_zero",
    "Ogdl.C33_refuted"
   ],
   "note": "Refuted: division and remainder by zero panic. Proved for all other int64 operands, of any Go integer type and from any operand expressions."
  },
  {
   "property": "C34",
   "status": "proved",
   "theorems": [
    "Ogdl.C34",
    "Ogdl.C34_texts"
   ],
   "note": ""
  },
  {
   "property": "C35",
   "status": "proved",
   "theorems": [
    "Ogdl.C35"
   ],
   "note": ""
  },
  {
   "property": "C36",
   "status": "proved",
   "theorems": [
    "Ogdl.C36",
    "Ogdl.C36_get",
    "Ogdl.C36_ends",
    "Ogdl.C36_text",
    "Ogdl.C36_get_text"
   ],
   "note": ""
  },
  {
   "property": "C37",
   "status": "partial",
   "theorems": [
    "Ogdl.C37_index_partial",
    "Ogdl.C37_index_update_partial",
    "Ogdl.C37_partial",
    "Ogdl.C37_update_partial",
    "Ogdl.C37_refuted"
   ],
   "note": "Proved for paths of names, and for paths of names followed by an index (a.b[3] = e, a.b[3] += e: the place, the other places, unrelated paths), for values that are not graphs and texts that fit the buffer (Spec.Fits). Refuted for texts of 4096 bytes: reading them does not end."
  },
  {
   "property": "C38",
   "status": "partial",
   "theorems": [
    "Ogdl.C38_partial",
    "Ogdl.C38_refuted"
   ],
   "note": "Refuted for eight texts with a meaning in the tree of a template, such as !p; proved for all others, of any length."
  },
  {
   "property": "C39",
   "status": "partial",
   "theorems": [
    "Ogdl.C39_partial"
   ],
   "note": "Proved for chains of any length and nesting in texts that fit the buffer (Spec.Fits); longer texts are missing."
  },
  {
   "property": "C40",
   "status": "partial",
   "theorems": [
    "Ogdl.C40_partial",
    "Ogdl.C40_empty",
    "Ogdl.C40_refuted"
   ],
   "note": "Refuted for a list of one value, over which a loop does nothing. Proved for all other lists, with bodies without break and without a loop on the same variable; texts that fit the buffer (Spec.Fits). About trees: in memory for bodies without assignments, or with assignments of numbers and texts to names (C104)."
  },
  {
   "property": "C41",
   "status": "partial",
   "theorems": [
    "Ogdl.C41_if",
    "Ogdl.C41_partial",
    "Ogdl.C41_refuted",
    "Ogdl.C41_top"
   ],
   "note": "Refuted for a break inside an if. Proved for a break directly in the body of a loop, and outside of loops. What a break inside an if does, anywhere in a template, is proved exactly (C41_if): it ends the body of the if and nothing else."
  },
  {
   "property": "C42",
   "status": "partial",
   "theorems": [
    "Ogdl.C42_endless_refuted",
    "Ogdl.C42_memory_partial",
    "Ogdl.C42_assign_memory_partial",
    "Ogdl.C42_partial",
    "Ogdl.C42_refuted"
   ],
   "note": "Refuted: $() panics, and $for(v, _this)=$v$end does not end in memory. Proved: processing any graph as a template ends on trees, and in memory for the templates of C104."
  },
  {
   "property": "C43",
   "status": "partial",
   "theorems": [
    "Ogdl.C43_partial",
    "Ogdl.C43_total",
    "Ogdl.C43_unchanged",
    "Ogdl.C43_unchanged_refuted",
    "Ogdl.C43_nil_refuted",
    "Ogdl.C43_refuted",
    "Ogdl.C43_name_refuted"
   ],
   "note": "JSON returns for every graph without nil subnodes and leaves it unchanged; the text is JSON of the document for graphs in document form (RootStandsFor). Refuted otherwise: sibling leaves get no comma, names of larger members are lost, nil subnodes panic and clear the root."
  },
  {
   "property": "C44",
   "status": "partial",
   "theorems": [
    "Ogdl.C44_partial",
    "Ogdl.C44_array_refuted",
    "Ogdl.C44_null_refuted"
   ],
   "note": "Proved for documents that are objects: every scalar, array and object below is found at its place. Refuted for a top level array (only the first element is kept) and for null."
  },
  {
   "property": "C45",
   "status": "partial",
   "theorems": [
    "Ogdl.C45_partial",
    "Ogdl.C45_binary_refuted",
    "Ogdl.C45_panic_refuted"
   ],
   "note": "Proved, with the message, for schemas without empty texts and !binary and graphs of scalars. Refuted: !binary accepts nothing, empty schema texts, nil contents and nil graphs panic."
  },
  {
   "property": "C46",
   "status": "partial",
   "theorems": [
    "Ogdl.C46_text_panics_refuted",
    "Ogdl.C46_text_panic_iff_partial",
    "Ogdl.C46_returns_partial",
    "Ogdl.C46_show_panic_iff_partial"
   ],
   "note": "Refuted: a single leaf made of CRs and at most one quote panics. Proved: exactly these panic."
  },
  {
   "property": "C47",
   "status": "partial",
   "theorems": [
    "Ogdl.C47_csv_exact",
    "Ogdl.C47_list_views_partial",
    "Ogdl.C47_refuted"
   ],
   "note": "StringCSV panics exactly on the graphs without subnodes (C47_refuted, C47_csv_exact); proved for all others."
  },
  {
   "property": "C48",
   "status": "proved",
   "theorems": [
    "Ogdl.C48_route"
   ],
   "note": "For every history of AddRoute with non-nil handlers."
  },
  {
   "property": "C49",
   "status": "partial",
   "theorems": [
    "Ogdl.C49_server_partial",
    "Ogdl.C49_server_refuted",
    "Ogdl.C49_server_header_refuted",
    "Ogdl.C49_client_partial",
    "Ogdl.C49_client_refuted"
   ],
   "note": "Server: proved when no header and no body is cut; refuted for every cut of the body and of the header. Client: proved for every segmentation that does not cut the header; refuted for a cut header."
  },
  {
   "property": "C50",
   "status": "proved",
   "theorems": [
    "Ogdl.C50_attempts",
    "Ogdl.C50_protocol1"
   ],
   "note": "For every history of dials, connections and responses on which each attempt returns. Both protocol versions."
  },
  {
   "property": "C51",
   "status": "proved",
   "theorems": [
    "Ogdl.C51_document",
    "Ogdl.C51_cut"
   ],
   "note": "On the tokens of every document, complete or cut anywhere; the XML decoder, the removal of accents and the trimming of text are parameters."
  },
  {
   "property": "C52",
   "status": "partial",
   "theorems": [
    "Ogdl.C52_refuted",
    "Ogdl.C52_partial",
    "Ogdl.C52_binary_partial"
   ],
   "note": "Proved for every int64, all graphs of data and all paths of names that fit the buffer (Spec.Fits), also after a binary round trip of the whole graph. Refuted for a name of 4096 letters: the call does not return."
  },
  {
   "property": "C53",
   "status": "partial",
   "theorems": [
    "Ogdl.C53_partial",
    "Ogdl.C53_refuted"
   ],
   "note": "Refuted for 4096 letters (Rune does not check for the end); proved for all inputs that fit the buffer (Spec.Fits)."
  },
  {
   "property": "C54",
   "status": "partial",
   "theorems": [
    "Ogdl.C54_partial",
    "Ogdl.C54_eval_partial",
    "Ogdl.C54_refuted"
   ],
   "note": "Refuted for every text of one or more spaces and tabs (panic), and for Eval of !e; proved for all other texts."
  },
  {
   "property": "C55",
   "status": "partial",
   "theorems": [
    "Ogdl.C55_partial",
    "Ogdl.C55_letters_partial",
    "Ogdl.C55_refuted"
   ],
   "note": "Refuted by the five bytes of a(\u00a2); proved for all ASCII texts that fit the buffer (Spec.Fits), and for all texts in which bytes that look like letters start letters."
  },
  {
   "property": "C56",
   "status": "partial",
   "theorems": [
    "Ogdl.C56_indented_partial",
    "Ogdl.C56_fillers_partial",
    "Ogdl.C56_blank_line_refuted"
   ],
   "note": "Refuted for an unindented blank line between nodes of the third level; proved for filler lines indented at least as much as the line that follows, for any indentation of the lines."
  },
  {
   "property": "C57",
   "status": "partial",
   "theorems": [
    "Ogdl.C57_partial",
    "Ogdl.C57_refuted"
   ],
   "note": "Refuted: !a ignores the context and !a.b panics. Proved for negation nodes in a parsed tree."
  },
  {
   "property": "C58",
   "status": "partial",
   "theorems": [
    "Ogdl.C58_panics",
    "Ogdl.C58_partial",
    "Ogdl.C58_refuted"
   ],
   "note": "Refuted: every parenthesised expression with an operator panics (C58_panics). A single operand in parentheses gives a group that holds its value."
  },
  {
   "property": "C59",
   "status": "partial",
   "theorems": [
    "Ogdl.C59_partial",
    "Ogdl.C59_refuted"
   ],
   "note": "Refuted: f(1 + 2) is called with 1, and a function below another node gets no arguments. Proved for f(a, b, ...) with any number of single operands."
  },
  {
   "property": "C60",
   "status": "partial",
   "theorems": [
    "Ogdl.C60_refuted",
    "Ogdl.C60_partial"
   ],
   "note": "Proved for well-formed templates that fit the buffer (Spec.Fits). Refuted for two templates that fit alone but not together."
  },
  {
   "property": "C61",
   "status": "partial",
   "theorems": [
    "Ogdl.C61_refuted",
    "Ogdl.C61_value",
    "Ogdl.C61_text",
    "Ogdl.C61_missing",
    "Ogdl.C61_dollar"
   ],
   "note": "Proved for paths of names and texts that fit the buffer (Spec.Fits). Refuted for a variable of 4095 letters."
  },
  {
   "property": "C62",
   "status": "partial",
   "theorems": [
    "Ogdl.C62_partial"
   ],
   "note": "Proved, in both directions, for texts that fit the buffer (Spec.Fits); longer texts are missing."
  },
  {
   "property": "C63",
   "status": "partial",
   "theorems": [
    "Ogdl.C63_one_value",
    "Ogdl.C63_typed_tree_partial",
    "Ogdl.C63_quoted_partial"
   ],
   "note": "Proved for trees of words in any layout with indentations below 2048 columns, and for quoted texts at the top level; longer runs of blanks and quoted texts further down are missing. ParseFloat is a parameter."
  },
  {
   "property": "C64",
   "status": "partial",
   "theorems": [
    "Ogdl.C64_block_partial",
    "Ogdl.C64_nested_refuted"
   ],
   "note": "Refuted below the top level, where the line after the block moves up. Proved for unindented lines."
  },
  {
   "property": "C65",
   "status": "partial",
   "theorems": [
    "Ogdl.C65_text_partial",
    "Ogdl.C65_unquoted",
    "Ogdl.C65_quotes_refuted"
   ],
   "note": "Refuted for values in quotes, which are unquoted; proved for values that do not start with a quote and have no CR."
  },
  {
   "property": "C66",
   "status": "partial",
   "theorems": [
    "Ogdl.C66_comment_partial",
    "Ogdl.C66_any_line_partial",
    "Ogdl.C66_crlf_refuted"
   ],
   "note": "Refuted for lines that end with CR NL; proved for NL on any line of any tree in any layout."
  },
  {
   "property": "C67",
   "status": "partial",
   "theorems": [
    "Ogdl.C67_flat_partial",
    "Ogdl.C67_single_refuted",
    "Ogdl.C67_types_refuted",
    "Ogdl.C67_member_array_refuted",
    "Ogdl.C67_array_refuted",
    "Ogdl.C67_scalar_refuted"
   ],
   "note": "Proved for flat objects of two or more members that are integers, texts and floats exact with six decimals. Refuted for one member, booleans, nested objects, arrays as members or as the document, and documents that are a single value."
  },
  {
   "property": "C68",
   "status": "partial",
   "theorems": [
    "Ogdl.C68_call_partial"
   ],
   "note": "Proved from end to end for protocol 2, for encodable requests and answers with nodes and segmentations that cut no header and no request body; C49 and C69 refute it for the others."
  },
  {
   "property": "C69",
   "status": "partial",
   "theorems": [
    "Ogdl.C69_refuted",
    "Ogdl.C69_once_partial",
    "Ogdl.C69_attempts_partial"
   ],
   "note": "Refuted: a request whose answer has no nodes is executed three times. Proved: a request is written at most once on each of at most three connections, again only after a failed attempt (C69_attempts_partial), and once when the first attempt gets an answer with nodes."
  },
  {
   "property": "C70",
   "status": "partial",
   "theorems": [
    "Ogdl.C70_close_partial",
    "Ogdl.C70_refuted",
    "Ogdl.C70_exact",
    "Ogdl.C70_history_partial"
   ],
   "note": "Refuted: a connection on which an attempt fails is never closed. Proved for every history of a client: the connections that stay open are exactly those on which an attempt failed and was repeated, at most two for each call, none if first attempts succeed."
  },
  {
   "property": "C71",
   "status": "partial",
   "theorems": [
    "Ogdl.C71_partial",
    "Ogdl.C71_missing",
    "Ogdl.C71_refuted"
   ],
   "note": "Proved for all paths of names, selectors and indexes whose index is in range. Refuted: an index beyond the end does not give nil, and only the first operand of an index is used."
  },
  {
   "property": "C72",
   "status": "partial",
   "theorems": [
    "Ogdl.C72_partial",
    "Ogdl.C72_reserved_partial",
    "Ogdl.C72_refuted"
   ],
   "note": "Proved for paths on which every step finds something. Refuted for a path of 4096 letters: reading it does not end."
  },
  {
   "property": "C73",
   "status": "partial",
   "theorems": [
    "Ogdl.C73_set",
    "Ogdl.C73_partial",
    "Ogdl.C73_refuted",
    "Ogdl.C73_middle_refuted",
    "Ogdl.C73_path_refuted"
   ],
   "note": "What Set does is proved exactly; Get afterwards when the index is at most the number of subnodes. Refuted beyond that (nil pointers), for an index inside the path and for an index given by a path."
  },
  {
   "property": "C74",
   "status": "partial",
   "theorems": [
    "Ogdl.C74_partial",
    "Ogdl.C74_refuted"
   ],
   "note": "Proved for arguments that have a value. Refuted: a surplus argument without value panics."
  },
  {
   "property": "C75",
   "status": "partial",
   "theorems": [
    "Ogdl.C75_partial",
    "Ogdl.C75_refuted"
   ],
   "note": "Proved for arguments that can be adapted. Refuted: one that cannot be adapted panics."
  },
  {
   "property": "C76",
   "status": "partial",
   "theorems": [
    "Ogdl.C76_partial",
    "Ogdl.C76_this",
    "Ogdl.C76_refuted"
   ],
   "note": "Refuted: uint64 values above the int64 range become negative; texts of blanks panic (C54)."
  },
  {
   "property": "C77",
   "status": "proved",
   "theorems": [
    "Ogdl.C77_local",
    "Ogdl.C77_shared"
   ],
   "note": "Histories start from empty memory; the client may do everything but g.Out = x.Out[:n], which itself makes arrays shared."
  },
  {
   "property": "C78",
   "status": "proved",
   "theorems": [
    "Ogdl.C78_values",
    "Ogdl.C78_others"
   ],
   "note": "A refinement: the pointer heap against the tree model, method by method and for whole histories. The path of Set is given parsed, with plain names and indexes (Spec.PathSteps)."
  },
  {
   "property": "C79",
   "status": "partial",
   "theorems": [
    "Ogdl.C79_argument_partial",
    "Ogdl.C79_merge_refuted"
   ],
   "note": "Refuted for Merge, which puts the nodes of its argument into the receiver and then merges later ones into them. Proved for Add, AddNodes and Copy."
  },
  {
   "property": "C80",
   "status": "partial",
   "theorems": [
    "Ogdl.C80_server_partial",
    "Ogdl.C80_together_refuted",
    "Ogdl.C80_call"
   ],
   "note": "Proved for requests that come one after the other, in any segments. Refuted: a request that arrives in one segment with the one before it is never answered."
  },
  {
   "property": "C81",
   "status": "partial",
   "theorems": [
    "Ogdl.C81_length_partial",
    "Ogdl.C81_deadline_refuted",
    "Ogdl.C81_closed_refuted"
   ],
   "note": "Proved for protocol 2. Refuted for protocol 1: at the deadline the part is executed as if it were the request, and if the connection is closed the server reads for ever."
  },
  {
   "property": "C82",
   "status": "partial",
   "theorems": [
    "Ogdl.C82_partial",
    "Ogdl.C82_unchanged_partial",
    "Ogdl.C82_lost_refuted",
    "Ogdl.C82_panic_refuted"
   ],
   "note": "The result is proved exactly for documents in which no element name starts with @ and no text is @id. Refuted: all but the last node of an element with an id are lost, and a text @id panics."
  },
  {
   "property": "C83",
   "status": "partial",
   "theorems": [
    "Ogdl.C83_lines_partial",
    "Ogdl.C83_links_partial",
    "Ogdl.C83_returns",
    "Ogdl.C83_links_refuted",
    "Ogdl.C83_markup_refuted",
    "Ogdl.C83_quotes_refuted"
   ],
   "note": "Proved for texts without blanks, quotes, commas, parentheses and angle brackets; Html returns for all graphs. Refuted: links with a blank in the text are not closed, texts are not escaped, and the quotes of a single quoted text cut the page."
  },
  {
   "property": "C84",
   "status": "partial",
   "theorems": [
    "Ogdl.C84_partial",
    "Ogdl.C84_refuted"
   ],
   "note": "Proved for files that start unindented and whose contents Text can write. Refuted for a text with a space at the top level."
  },
  {
   "property": "C85",
   "status": "partial",
   "theorems": [
    "Ogdl.C85_partial",
    "Ogdl.C85_refuted"
   ],
   "note": "Proved for paths of names that fit the buffer (Spec.Fits) when the contents printed can be written. Refuted for a text with a space."
  },
  {
   "property": "C86",
   "status": "partial",
   "theorems": [
    "Ogdl.C86_partial",
    "Ogdl.C86_refuted"
   ],
   "note": "Proved for files that are not empty, start unindented and end with a line end. Refuted: if the first file is empty all others are ignored."
  },
  {
   "property": "C87",
   "status": "partial",
   "theorems": [
    "Ogdl.C87_partial",
    "Ogdl.C87_refuted"
   ],
   "note": "Proved for objects whose contents Text can write. Refuted for a text that starts with a backtick."
  },
  {
   "property": "C88",
   "status": "partial",
   "theorems": [
    "Ogdl.C88_partial",
    "Ogdl.C88_id_partial",
    "Ogdl.C88_refuted"
   ],
   "note": "Proved for documents whose contents Text can write, with -id for those without @ names and named fields. Refuted for a text that starts with a backtick."
  },
  {
   "property": "C89",
   "status": "partial",
   "theorems": [
    "Ogdl.C89_alone",
    "Ogdl.C89_adds_partial",
    "Ogdl.C89_refuted",
    "Ogdl.C89_readers_partial"
   ],
   "note": "Proved for every schedule: Adds through one handle lose and change nothing, and what was in the file stays and is read correctly by readers with handles of their own. Refuted: the returned position can be that of another record, a Get through the handle of an Add can make it overwrite a record, and Adds through two handles overwrite each other."
  },
  {
   "property": "C90",
   "status": "partial",
   "theorems": [
    "Ogdl.C90_partial",
    "Ogdl.C90_refuted"
   ],
   "note": "Proved for every schedule and handlers that do not panic. Refuted: a panic of a handler ends the server for all clients."
  },
  {
   "property": "C91",
   "status": "partial",
   "theorems": [
    "Ogdl.C91_partial",
    "Ogdl.C91_refuted"
   ],
   "note": "Proved for goroutines with connections of their own. Refuted for a shared client: each goroutine gets the answer of the other."
  },
  {
   "property": "C92",
   "status": "partial",
   "theorems": [
    "Ogdl.C92_alone",
    "Ogdl.C92_partial",
    "Ogdl.C92_refuted"
   ],
   "note": "The text is proved for graphs with subnodes whose root is not _. Refuted: the content of the root is lost, and with the root _ another text is returned."
  },
  {
   "property": "C93",
   "status": "proved",
   "theorems": [
    "Ogdl.C93_durable",
    "Ogdl.C93_unsynced"
   ],
   "note": "For every history of Adds, every schedule of later Adds through the same handle, every crash and every later content; Sync is taken to bring the whole file to the disk. C93_unsynced shows that the synchronisation is needed."
  },
  {
   "property": "C94",
   "status": "partial",
   "theorems": [
    "Ogdl.C94_partial",
    "Ogdl.C94_later_partial",
    "Ogdl.C94_refuted",
    "Ogdl.C94_hang_refuted",
    "Ogdl.C94_cut"
   ],
   "note": "Proved for a file cut between two records; records added later are found at their positions after any cut. Refuted: a cut record swallows the next one, or makes Get loop for ever. What Get returns at the record that was cut is proved (C94_cut): nil or the first nodes, without an error."
  },
  {
   "property": "C95",
   "status": "partial",
   "theorems": [
    "Ogdl.C95_partial",
    "Ogdl.C95_texts",
    "Ogdl.C95_zero",
    "Ogdl.C95_word",
    "Ogdl.C95_left",
    "Ogdl.C95_refuted"
   ],
   "note": "Proved for floats, for numbers with the text of a number on the right, and for two texts. Refuted: the text of a number on the left is put together with the number by every operator. A remainder by a number below one panics (C95_zero)."
  },
  {
   "property": "C96",
   "status": "partial",
   "theorems": [
    "Ogdl.C96_partial",
    "Ogdl.C96_integral",
    "Ogdl.C96_refuted"
   ],
   "note": "Proved for a float on the left. Refuted for an integer on the left, which is compared with the integral part: 1 == 1.5 is true. The behaviour of floats is that of the environment (Ext)."
  },
  {
   "property": "C97",
   "status": "partial",
   "theorems": [
    "Ogdl.C97_index_refuted",
    "Ogdl.C97_partial",
    "Ogdl.C97_empty",
    "Ogdl.C97_refuted"
   ],
   "note": "Refuted for a place that does not exist (C97_index_refuted: a[3] -= 7 creates the text 7, not -7). Proved for paths of names that lead nowhere, values that are not graphs and texts that fit the buffer (Spec.Fits). Refuted for a path to a node without subnodes: the update panics."
  },
  {
   "property": "C98",
   "status": "partial",
   "theorems": [
    "Ogdl.C98_unchanged",
    "Ogdl.C98_partial",
    "Ogdl.C98_equals",
    "Ogdl.C98_refuted",
    "Ogdl.C98_this_refuted"
   ],
   "note": "C98_unchanged is complete. C98_partial covers every getter and every history of C78, except Scalar and ThisScalar on a graph without subnodes after a removal; there C98_refuted and C98_this_refuted show a panic. Contents are not graphs."
  },
  {
   "property": "C99",
   "status": "partial",
   "theorems": [
    "Ogdl.C99_partial",
    "Ogdl.C99_sequence_partial",
    "Ogdl.C99_text_partial"
   ],
   "note": "Proved for every history of C78 and all expressions without assignments, one after the other, also in the context of earlier results. Graphs, expressions and results of functions have no nil subnodes."
  },
  {
   "property": "C100",
   "status": "partial",
   "theorems": [
    "Ogdl.C100_partial",
    "Ogdl.C100_refuted",
    "Ogdl.C100_cycle_refuted"
   ],
   "note": "Proved for every history of C78 with evaluations and assignments between, where the assigned value is not a graph. Refuted for graphs: the value is not copied, so a later assignment shows in two places (C100_refuted), and a graph assigned into itself makes a cycle on which Clone does not end (C100_cycle_refuted). Assignments within expressions are missing."
  },
  {
   "property": "C101",
   "status": "partial",
   "theorems": [
    "Ogdl.C101_partial",
    "Ogdl.C101_refuted",
    "Ogdl.C101_index_partial",
    "Ogdl.C101_through_partial",
    "Ogdl.C101_selector_partial"
   ],
   "note": "Proved for paths of names in graphs without nil subnodes, for every history before and after. Refuted for paths with an index: Get returns a new node above the one found (C101_refuted); for an index at the end the subnode of that new node is the node of the graph (C101_index_partial), and with names after the index the result itself is (C101_through_partial), as it is with names after a selector (C101_selector_partial). A selector at the end, more than one selector or index and nil subnodes are missing."
  },
  {
   "property": "C102",
   "status": "proved",
   "theorems": [
    "Ogdl.C102",
    "Ogdl.C102_string",
    "Ogdl.C102_types",
    "Ogdl.C102_path",
    "Ogdl.C102_expression",
    "Ogdl.C102_template",
    "Ogdl.C102_binary",
    "Ogdl.C102_json"
   ],
   "note": ""
  },
  {
   "property": "C103",
   "status": "proved",
   "theorems": [
    "Ogdl.C103",
    "Ogdl.C103_number"
   ],
   "note": ""
  },
  {
   "property": "C104",
   "status": "partial",
   "theorems": [
    "Ogdl.C104_partial",
    "Ogdl.C104_text",
    "Ogdl.C104_refuted",
    "Ogdl.C104_sharing_refuted",
    "Ogdl.C104_assign_partial",
    "Ogdl.C104_assign_text",
    "Ogdl.C104_assign_refuted"
   ],
   "note": "Refuted for loops over _this, which do not end, for assignments through a loop variable, which change the list, and for assignments of graphs, which share nodes. Proved for templates without assignments, or with assignments of numbers, texts and operations to names that no loop goes over, without loops over _this or a group, any number of them one after the other, in a non-nil graph without nil subnodes, with functions that return no nil graphs (no graphs, if there are assignments)."
  },
  {
   "property": "C105",
   "status": "partial",
   "theorems": [
    "Ogdl.C105_alone",
    "Ogdl.C105_partial",
    "Ogdl.C105_refuted"
   ],
   "note": "Refuted for goroutines that share a context. Proved for contexts of their own that share graphs, for templates as in C104; the evaluation of one expression is one step, memory is sequentially consistent."
  },
  {
   "property": "C106",
   "status": "partial",
   "theorems": [
    "Ogdl.C106_partial",
    "Ogdl.C106_protocol1",
    "Ogdl.C106_refuted"
   ],
   "note": "Refuted for protocol 2 when a read of the response returns zero bytes without an error (nil and no error). Proved for protocol 1 on all connections and for protocol 2 on connections without such reads."
  },
  {
   "property": "C107",
   "status": "proved",
   "theorems": [
    "Ogdl.C107",
    "Ogdl.C107_file"
   ],
   "note": "For streams that arrive in segments that are not empty."
  },
  {
   "property": "C108",
   "status": "partial",
   "theorems": [
    "Ogdl.C108_partial",
    "Ogdl.C108_refuted"
   ],
   "note": "Refuted for an index that is followed by other elements. Proved for names, selectors and an index at the end that is in range, in graphs of data, for texts that fit the buffer."
  },
  {
   "property": "C109",
   "status": "partial",
   "theorems": [
    "Ogdl.C109_partial",
    "Ogdl.C109_text_partial",
    "Ogdl.C109_expression_partial",
    "Ogdl.C109_node_partial",
    "Ogdl.C109_refuted"
   ],
   "note": "Refuted for an assignment to something that is not a path ($(1 = 2) replaces all subnodes of the context). Proved on trees for all templates and expressions whose assignments, at any depth, are to paths that start with a name."
  },
  {
   "property": "C110",
   "status": "proved",
   "theorems": [
    "Ogdl.C110",
    "Ogdl.C110_nodes",
    "Ogdl.C110_order"
   ],
   "note": "On every byte string, with the exact tree for streams with any levels. C04_exact says on which strings it returns."
  },
  {
   "property": "C111",
   "status": "proved",
   "theorems": [
    "Ogdl.C111_get",
    "Ogdl.C111_getBinary",
    "Ogdl.C111_returns",
    "Ogdl.C111_progress",
    "Ogdl.C111_same"
   ],
   "note": "Files are byte strings; Seek and ReadAt on them do not fail (positions from 0 on)."
  },
  {
   "property": "C112",
   "status": "proved",
   "theorems": [
    "Ogdl.C112",
    "Ogdl.C112_written"
   ],
   "note": "On which cuts it returns is C04_exact; C94_cut is the same for a log."
  },
  {
   "property": "C113",
   "status": "partial",
   "theorems": [
    "Ogdl.C113",
    "Ogdl.C113_returns",
    "Ogdl.C113_one",
    "Ogdl.C113_nothing_partial",
    "Ogdl.C113_break_refuted",
    "Ogdl.C113_number_refuted",
    "Ogdl.C113_quoted_refuted",
    "Ogdl.C113_quoted",
    "Ogdl.C113_typed",
    "Ogdl.C113_spaceMax_refuted",
    "Ogdl.C113_spaceMax_zero_refuted",
    "Ogdl.C113_spaceMax_partial",
    "Ogdl.C113_words_partial",
    "Ogdl.C113_word_one",
    "Ogdl.C113_word_invalid"
   ],
   "note": "What each method returns and leaves is proved exactly, for all sequences of calls. Refuted: Break on a CR alone, Number on a sign alone, SpaceMax on mixed blanks or with zero, and Quoted on a text that is not closed. Token8 is proved for texts that fit the buffer (C113_words_partial). Rune and UnreadRune are left out."
  },
  {
   "property": "C114",
   "status": "partial",
   "theorems": [
    "Ogdl.C114_partial",
    "Ogdl.C114_levels",
    "Ogdl.C114_less_refuted",
    "Ogdl.C114_mixed_refuted",
    "Ogdl.C114_order_partial"
   ],
   "note": "Proved for texts whose first line is not indented by a mixture of blanks, in which no line is indented less than the first, and each line without values at least as much as the next; C114_levels says what is read without the last two conditions. Refuted: lines less indented than the first are lost, and a first line indented by spaces and tabs ends the parse. Lines with a block are covered if they are not indented (C64)."
  },
  {
   "property": "C115",
   "status": "partial",
   "theorems": [
    "Ogdl.C115_one",
    "Ogdl.C115_partial",
    "Ogdl.C115_long_partial",
    "Ogdl.C115_all_partial",
    "Ogdl.C115_end_refuted",
    "Ogdl.C115_again_refuted",
    "Ogdl.C115_cut_refuted"
   ],
   "note": "Proved for texts of any length in which no rune is cut at an end of the buffer, invalid bytes included, and all sequences of calls that stay within the text and never go more than 512 runes back (C115_long_partial); for texts of at most 4095 bytes without the last condition, and beyond the end as far as the buffer has room (C115_partial). Refuted: the end is read as a rune 0 without an error (C115_end_refuted), at the end of a text of 4096 bytes the second half is read again for ever (C115_again_refuted), and a rune that begins at the last byte of the buffer is cut (C115_cut_refuted)."
  },
  {
   "property": "C116",
   "status": "partial",
   "theorems": [
    "Ogdl.C116_once",
    "Ogdl.C116_partial",
    "Ogdl.C116_start",
    "Ogdl.C116_end",
    "Ogdl.C116_never",
    "Ogdl.C116_early_refuted",
    "Ogdl.C116_never_refuted"
   ],
   "note": "Proved: an error is returned once, and only when nothing is left in the reader (for readers that return io.EOF alone). What Error returns of a new lexer and after all bytes is proved exactly (C116_start, C116_end, C116_never). Refuted: of a text of less than 2048 bytes the end is returned before a byte has been read, and of most longer ones it is never returned."
  },
  {
   "property": "C117",
   "status": "partial",
   "theorems": [
    "Ogdl.C117_int_partial",
    "Ogdl.C117_int_refuted",
    "Ogdl.C117_bool",
    "Ogdl.C117_float",
    "Ogdl.C117_string_partial",
    "Ogdl.C117_string_refuted"
   ],
   "note": "Proved for Int64 (it panics on a value that is a nil graph, C117_int_refuted), Float64 and Bool. Refuted for String, StringTxt and StringCSV of a graph without subnodes: the default is ignored, and StringCSV panics."
  }
 ]
}