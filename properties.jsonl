{"id": "C01", "title": "Binary round trip", "statement": "For every graph whose nodes all hold non-empty text that contains no NUL byte and does not start with byte 0x01, and that is less than 2^21 levels deep, FromBinary(g.Binary()) returns a graph with root '_' and exactly the same ordered tree below it.", "quantifier": "all trees (any width, any depth below 2^21) of such text nodes", "why_tests_cant": "infinitely many tree shapes and contents; the 1/2/3-byte level encodings only show at depths no test builds", "anchors": ["binary.go: Binary, bin, FromBinary, parse, line, varInt, newVarInt", "event.go: Tree, AddAt"]}
{"id": "C02", "title": "Empty nodes are transparent in binary form", "statement": "For every graph, also with empty (or nil-content) nodes, FromBinary(g.Binary()) is the graph obtained by removing each empty node and promoting its children in place; non-string scalars come back as their printed text.", "quantifier": "all trees, empty nodes at any position", "why_tests_cant": "needs every placement and nesting of empty nodes", "anchors": ["binary.go: bin (skip empty nodes)", "gettypes.go: _bytes"]}
{"id": "C03", "title": "Level integers survive encoding", "statement": "Every level that the writer encodes is read back as the same level, with the number of bytes the format documents; levels outside the range are refused.", "quantifier": "all integers", "why_tests_cant": "the one-, two-, three- and four-byte classes each hold up to 2^28 values; the existing test asserts with && and so accepts a wrong value", "anchors": ["binary.go: newVarInt, varInt"]}
{"id": "C04", "title": "FromBinary always returns", "statement": "FromBinary returns (a graph or nil) on every byte string, truncated or corrupt ones included.", "quantifier": "all byte strings", "why_tests_cant": "hangs only appear on particular truncations", "anchors": ["binary.go: line, read, parse"]}
{"id": "C05", "title": "Binary records are self-delimiting", "statement": "Reading a record written by Binary() consumes exactly its bytes whatever follows it, and reports that byte count; so distinct (flattened) graphs have distinct encodings and none is a prefix of another.", "quantifier": "all encodable graphs and all following byte strings", "why_tests_cant": "needs every continuation of every record", "anchors": ["binary.go: parse, line", "log.go: Get"]}
{"id": "C06", "title": "Log returns what was added", "statement": "After any history of Add and AddBinary calls on a log, Get at the position an Add returned gives back the added graph and the position of the next record; following positions from 0 enumerates all records in order and then reports -1.", "quantifier": "all histories of appends and all positions returned by them", "why_tests_cant": "unbounded histories; every earlier record must be checked after every later append", "anchors": ["log.go: Add, AddBinary, Get"]}
{"id": "C07", "title": "GetBinary returns the stored bytes and the next position", "statement": "GetBinary(i) at a position returned by Add gives exactly the bytes stored for that record and the position of the next record.", "quantifier": "all histories and all positions returned", "why_tests_cant": "a test at position 0 cannot see an offset error", "anchors": ["log.go: GetBinary"]}
{"id": "C08", "title": "Log is append-only and survives a torn tail", "statement": "Appending never changes an earlier record; if the file is cut at any byte inside the last record (crash during write), every earlier record is still read back unchanged.", "quantifier": "all histories and all crash points inside the last record", "why_tests_cant": "every truncation offset of every history", "anchors": ["log.go: Add, Get", "binary.go: parse"]}
{"id": "C09", "title": "Text round trip", "statement": "For graphs of non-empty nodes whose content can be written as OGDL text, FromString(g.Text()) equals g with root '_', for every shape and depth.", "quantifier": "all trees with such contents", "why_tests_cant": "unbounded shapes, depths and strings", "anchors": ["graph.go: Text, _text", "block.go: Ogdl, tree, line", "lexer.go"]}
{"id": "C10", "title": "FromString always returns and never panics", "statement": "FromString/FromBytes terminate on every byte string and never panic.", "quantifier": "all byte strings", "why_tests_cant": "a hang or panic can hide in any byte combination", "anchors": ["block.go: tree, line", "lexer.go: Quoted, Block, Comment", "event.go: Tree"]}
{"id": "C11", "title": "Indentation width is irrelevant", "statement": "Two texts that write the same tree with different (consistent) indentation widths, spaces or tabs, parse to the same graph.", "quantifier": "all trees and all indentation widths >= 1", "why_tests_cant": "infinitely many trees and widths", "anchors": ["block.go: tree, line", "lexer.go: Space"]}
{"id": "C12", "title": "Inline form equals nested form", "statement": "A line 'a b c' parses to the same graph as a over b over c each on its own deeper-indented line.", "quantifier": "all sequences of plain words", "why_tests_cant": "unbounded word lists", "anchors": ["block.go: line"]}
{"id": "C13", "title": "Event levels rebuild the tree", "statement": "For every sequence of (level,item) events in which a level grows by at most one, Tree() returns the unique ordered tree whose preorder with depths is that sequence; nothing is lost or reordered.", "quantifier": "all valid event sequences", "why_tests_cant": "unbounded event sequences", "anchors": ["event.go: Tree, AddAt, SetLevel, Inc, Dec"]}
{"id": "C14", "title": "Parsing does not depend on how the reader delivers bytes", "statement": "FromReader gives the same graph for every way the reader splits the same bytes into Read results.", "quantifier": "all inputs and all reader chunkings", "why_tests_cant": "schedules of short reads are unbounded", "anchors": ["lexer.go: fill, Byte", "parser.go: FromReader"]}
{"id": "C15", "title": "Lexer is a cursor over the stream", "statement": "Any sequence of Byte and UnreadByte calls that never steps back further than half a buffer sees exactly the bytes of the input, for input of any length.", "quantifier": "all inputs of any length and all such call sequences", "why_tests_cant": "buffer refill boundaries and call sequences are unbounded", "anchors": ["lexer.go: Byte, UnreadByte, fill, NewLexer"]}
{"id": "C16", "title": "Dotted paths parse to their elements", "statement": "NewPath of identifiers joined by dots has exactly those identifiers, in order, as elements.", "quantifier": "all non-empty lists of identifiers", "why_tests_cant": "unbounded lists and identifiers", "anchors": ["flow.go: Path, NewPath", "lexer.go: Token8"]}
{"id": "C17", "title": "Get composes", "statement": "g.Get(p+'.'+q) equals g.Get(p).Get(q), for all identifier paths, present or missing.", "quantifier": "all graphs, all pairs of identifier paths", "why_tests_cant": "unbounded graphs and paths", "anchors": ["graph.go: Get", "eval.go: getPath"]}
{"id": "C18", "title": "Set then Get", "statement": "After g.Set(path,v), g.Get(path) finds a node whose only subnode is v, whether the path existed, existed partly, or not at all.", "quantifier": "all graphs, all identifier paths, all scalar values", "why_tests_cant": "unbounded graphs and paths", "anchors": ["graph.go: Set, set", "eval.go: getPath"]}
{"id": "C19", "title": "Set touches nothing else", "statement": "g.Set(path,v) leaves every identifier path that is neither an extension nor a prefix of path with the same Get result, adds nodes only along the path, and setting twice is the same as setting once.", "quantifier": "all graphs, all pairs of paths, all values", "why_tests_cant": "needs every pair of paths in every graph", "anchors": ["graph.go: set"]}
{"id": "C20", "title": "Missing values give defaults", "statement": "For a path that does not exist Get is nil, and String, Int64, Bool on it return the given default (or zero value) instead of panicking.", "quantifier": "all graphs without nil children, all missing identifier paths, all defaults", "why_tests_cant": "unbounded graphs and paths", "anchors": ["graph.go: Get, Node", "gettypes.go: String, Int64, Bool, Interface"]}
{"id": "C21", "title": "Typed getters agree", "statement": "GetString(path) and GetBytes(path) without error equal Get(path).String() and Get(path).Bytes(); GetInt64/GetFloat64/GetBool succeed exactly when the value converts, and agree with Get(path).Int64()/Float64()/Bool().", "quantifier": "all graphs and paths", "why_tests_cant": "unbounded graphs, values and paths", "anchors": ["gettypes.go: GetString, GetBytes, GetInt64, GetFloat64, GetBool, String, Bytes, Int64, Float64, Bool"]}
{"id": "C22", "title": "Equals is an equivalence that means same tree", "statement": "On graphs with comparable contents Equals is reflexive, symmetric and transitive, and holds exactly when the ordered trees are identical.", "quantifier": "all triples of graphs", "why_tests_cant": "unbounded trees", "anchors": ["graph.go: Equals"]}
{"id": "C23", "title": "Clone and Copy reproduce the graph", "statement": "g.Clone() Equals g, and copying g into an empty graph reproduces its subnodes in order.", "quantifier": "all graphs", "why_tests_cant": "unbounded trees", "anchors": ["graph.go: Clone, Copy"]}
{"id": "C24", "title": "Clones are independent", "statement": "Clone returns a graph that looks like the original, and no mutation of a clone (at any depth, by any sequence of operations on pointers obtained from it) changes the original, and vice versa. Contents that are themselves pointers are shared, as the documentation of Clone says.", "quantifier": "all graphs and all histories of mutations after Clone", "why_tests_cant": "aliasing appears only after particular mutations at particular depths", "anchors": ["graph.go: Clone, Copy, AddNodes"]}
{"id": "C25", "title": "Delete removes exactly the equal subnodes", "statement": "After g.Delete(n) no direct subnode equals n, all others remain in order, and nothing deeper changes.", "quantifier": "all graphs and contents", "why_tests_cant": "in-place deletion while iterating: adjacent matches, last element, all positions", "anchors": ["graph.go: Delete"]}
{"id": "C26", "title": "Positional operations behave like a list", "statement": "Len, GetAt, Add and DeleteAt behave as length, lookup, append and erase on the list of subnodes, for every index including out of range ones.", "quantifier": "all graphs and all integer indexes, all operation sequences", "why_tests_cant": "unbounded histories", "anchors": ["graph.go: Len, GetAt, Add, DeleteAt, Clear"]}
{"id": "C27", "title": "Name lookups find the first match", "statement": "Node returns the first direct subnode with that string; NodeOrNew and Create return it or append exactly one; NodeSet leaves exactly one value under the name (the graph itself if the value is one, and none if it is nil).", "quantifier": "all graphs and names", "why_tests_cant": "unbounded graphs", "anchors": ["graph.go: Node, NodeOrNew, Create, NodeSet"]}
{"id": "C28", "title": "Substitute replaces every occurrence and nothing else", "statement": "After Substitute(s,v) every descendant whose text was s holds v, every other node is unchanged and the shape is unchanged; doing it again changes nothing unless v itself reads s.", "quantifier": "all graphs, strings and values", "why_tests_cant": "unbounded trees", "anchors": ["graph.go: Substitute"]}
{"id": "C29", "title": "Merge overlays by key", "statement": "dst.Merge(src) keeps one node per key: keys of src that exist in dst replace/merge into it, new keys are appended.", "quantifier": "all pairs of graphs", "why_tests_cant": "unbounded pairs of graphs", "anchors": ["graph.go: Merge"]}
{"id": "C30", "title": "Sort orders and loses nothing", "statement": "After Sort(field)/SortAsInt(field) the subnodes are a permutation of the previous ones and are in non-decreasing order of the field's text (or integer) value.", "quantifier": "all graphs and fields", "why_tests_cant": "unbounded lists", "anchors": ["sort.go: Sort, SortAsInt, Less"]}
{"id": "C31", "title": "Find is a filter", "statement": "Find(re) returns exactly the direct subnodes whose text matches, in order.", "quantifier": "all graphs, all regular expressions", "why_tests_cant": "unbounded graphs", "anchors": ["gettypes.go: Find"]}
{"id": "C32", "title": "Operator precedence and left associativity", "statement": "For every well formed sequence operand (operator operand)*, the parsed expression tree has those tokens in the same left-to-right order, binds tighter operators deeper, and groups equal precedence to the left.", "quantifier": "all sequences of operands and binary operators, any length", "why_tests_cant": "unbounded expressions", "anchors": ["expression.go: NewExpression, _ast, precedence"]}
{"id": "C33", "title": "Integer arithmetic is 64-bit two's complement", "statement": "For integer operands + - * / % return the int64 result with wrap-around and truncation toward zero; division by zero does not crash the caller.", "quantifier": "all pairs of int64", "why_tests_cant": "2^128 pairs", "anchors": ["eval.go: calc"]}
{"id": "C34", "title": "Comparisons are consistent", "statement": "On integers exactly one of <, ==, > holds, <= is not >, >= is not <, != is not ==; on strings == and != are complementary.", "quantifier": "all pairs of values", "why_tests_cant": "unbounded", "anchors": ["eval.go: compare"]}
{"id": "C35", "title": "Logic operators", "statement": "&& and || give the boolean result when both sides convert to booleans and false otherwise.", "quantifier": "all pairs of values", "why_tests_cant": "unbounded", "anchors": ["eval.go: logic"]}
{"id": "C36", "title": "Evaluation without assignment is read-only", "statement": "Evaluating an expression that contains no assignment operator leaves the context graph unchanged.", "quantifier": "all expressions and contexts without native functions", "why_tests_cant": "unbounded expressions", "anchors": ["eval.go: Eval, evalExpression, evalPath, evalBinary"]}
{"id": "C37", "title": "Assignment is visible and local", "statement": "After evaluating 'x = e' the path x reads as the value of e and every unrelated path is unchanged; x += e on an existing value adds.", "quantifier": "all contexts, paths and values", "why_tests_cant": "unbounded", "anchors": ["eval.go: assign, evalBinary", "graph.go: set"]}
{"id": "C38", "title": "Plain text templates are copied verbatim", "statement": "A template without '$' is output unchanged by Process, whatever the context.", "quantifier": "all texts without '$' and control characters, all contexts", "why_tests_cant": "unbounded texts", "anchors": ["template.go: NewTemplate, Template, process", "lexer.go: TemplateText"]}
{"id": "C39", "title": "Exactly one branch of if/elseif/else is output", "statement": "In a chain if/elseif*/else, Process outputs the body of the first condition that is true, or the else body if none is, and nothing else.", "quantifier": "all chains, conditions, bodies and contexts", "why_tests_cant": "unbounded chains", "anchors": ["template.go: process"]}
{"id": "C40", "title": "for visits every element once in order", "statement": "A for loop outputs its body once per subnode, in order, with the loop variable bound to that subnode.", "quantifier": "all lists, bodies and contexts", "why_tests_cant": "unbounded lists", "anchors": ["template.go: process"]}
{"id": "C41", "title": "break ends the loop", "statement": "$break inside a for loop (also inside an if) ends the innermost for.", "quantifier": "all loop bodies", "why_tests_cant": "unbounded nesting", "anchors": ["template.go: process"]}
{"id": "C42", "title": "Template processing never panics", "statement": "NewTemplate(s).Process(ctx) returns for every template text and every context graph.", "quantifier": "all texts and contexts", "why_tests_cant": "a single malformed expression is enough", "anchors": ["template.go: process", "expression.go: _ast", "eval.go"]}
{"id": "C43", "title": "JSON() is well formed and read-only", "statement": "g.JSON() is valid JSON text for the graph and leaves g unchanged.", "quantifier": "all graphs", "why_tests_cant": "unbounded graphs", "anchors": ["encoding.go: JSON, json, writeValue"]}
{"id": "C44", "title": "FromJSON keeps every value", "statement": "FromJSON keeps all array elements and object members of the document.", "quantifier": "all JSON documents", "why_tests_cant": "unbounded documents, map iteration order", "anchors": ["encoding.go: FromJSON, toGraph"]}
{"id": "C45", "title": "Schema check is positional and sound", "statement": "schema.Check(x) is true exactly when every schema node has a node at the same position in x with the same literal or a value of the declared type, recursively.", "quantifier": "all pairs of graphs", "why_tests_cant": "unbounded pairs", "anchors": ["schema.go: Check, checkNode"]}
{"id": "C46", "title": "Text and Show never panic", "statement": "Text() and Show() return for every graph.", "quantifier": "all graphs, nil children included", "why_tests_cant": "unbounded graphs and strings", "anchors": ["graph.go: Text, Show, _text"]}
{"id": "C47", "title": "List views show every subnode", "statement": "Strings, StringTxt and StringCSV show exactly the texts of the direct subnodes in order, for every graph.", "quantifier": "all graphs", "why_tests_cant": "unbounded lists", "anchors": ["gettypes.go: Strings, StringTxt, StringCSV"]}
{"id": "C48", "title": "Remote function routing", "statement": "A request is answered by the last handler registered for the text of its first node, and by the not-found reply if there is none.", "quantifier": "all sequences of AddRoute and all requests", "why_tests_cant": "unbounded histories", "anchors": ["ogdlrf/server.go: AddRoute, router"]}
{"id": "C49", "title": "Message framing is independent of TCP segmentation", "statement": "Request and response bodies arrive intact however the transport splits them.", "quantifier": "all messages and all segmentations", "why_tests_cant": "unbounded schedules", "anchors": ["ogdlrf/client.go: callV2", "ogdlrf/server.go: process"]}
{"id": "C50", "title": "Calls are retried a bounded number of times", "statement": "Client.Call makes at most three attempts, stops at the first success, and returns the last error otherwise.", "quantifier": "all failure histories", "why_tests_cant": "unbounded failure schedules", "anchors": ["ogdlrf/client.go: Call"]}
{"id": "C51", "title": "XML nesting is preserved", "statement": "FromXML builds one node per element, nested as in the document, attributes as '@name' subnodes and trimmed non-empty text as leaves, in document order.", "quantifier": "all well formed token sequences", "why_tests_cant": "unbounded documents", "anchors": ["io/gxml/xml.go: FromXML"]}
{"id": "C52", "title": "Integers survive storing and printing", "statement": "An int64 stored under a name reads back as the same int64 through Get(name).Int64(), also after a binary round trip.", "quantifier": "all int64 values, all graphs and names", "why_tests_cant": "2^64 values", "anchors": ["gettypes.go: Int64, _int64f, _string", "binary.go"]}
{"id": "C53", "title": "Tokens end where the input ends", "statement": "Parsing a path or template reads only bytes of the given input, for input of any length.", "quantifier": "all inputs of any length", "why_tests_cant": "needs inputs at and beyond the buffer size", "anchors": ["lexer.go: Rune, Token8, fill"]}
{"id": "C54", "title": "Scalar conversion never panics", "statement": "Scalar, Number and Eval of a constant return for every string content.", "quantifier": "all strings", "why_tests_cant": "one specific class of strings (only spaces)", "anchors": ["gettypes.go: isInteger, number, Scalar"]}
{"id": "C55", "title": "Parsing a path, expression or template always returns", "statement": "NewPath, NewExpression and NewTemplate terminate on every string.", "quantifier": "all byte strings", "why_tests_cant": "a hang can hide in any byte combination", "anchors": ["flow.go: Path, ArgList, Expression, UnaryExpression", "template.go: NewTemplate, Variable", "lexer.go: Rune, Token8"]}
{"id": "C56", "title": "Blank lines and comments do not change the structure", "statement": "Inserting blank lines or comment lines between the lines of a text does not change the graph FromString returns.", "quantifier": "all trees, all positions, numbers and texts of filler lines", "why_tests_cant": "unbounded documents and insertions", "anchors": ["block.go: line", "lexer.go: Comment, Break"]}
{"id": "C57", "title": "Negation negates", "statement": "For every expression e, '!e' evaluates to true exactly when e does not evaluate to true.", "quantifier": "all contexts and operands", "why_tests_cant": "unbounded contexts and operands", "anchors": ["flow.go: UnaryExpression", "expression.go: _ast", "eval.go: evalExpression, evalBool"]}
{"id": "C58", "title": "Parentheses group", "statement": "A parenthesised expression has the value of the expression between the parentheses, and can be used as an operand.", "quantifier": "all contexts and expressions", "why_tests_cant": "unbounded nesting", "anchors": ["flow.go: UnaryExpression", "expression.go: _ast", "eval.go: evalExpression (TypeGroup)"]}
{"id": "C59", "title": "Functions get the values of their arguments", "statement": "Evaluating f(a, b, ...) calls the Go function stored at path f with the values of the argument expressions, in order, and the result of the call is the value.", "quantifier": "all contexts, functions and argument lists", "why_tests_cant": "unbounded argument lists and contexts", "anchors": ["function.go: function", "flow.go: ArgList", "expression.go: NewExpression"]}
{"id": "C60", "title": "Templates compose", "statement": "Processing the concatenation of two template texts outputs what the first outputs followed by what the second outputs in the context the first has left.", "quantifier": "all pairs of templates and all contexts", "why_tests_cant": "unbounded templates and contexts", "anchors": ["template.go: NewTemplate, Process, process"]}
{"id": "C61", "title": "Variables are replaced by what the path leads to", "statement": "$path and ${path} output the value under the node at the path, or the text of the node if it has several subnodes, and nothing if there is no such node; the context does not change. $\\ outputs a dollar sign.", "quantifier": "all paths of names, all contexts", "why_tests_cant": "unbounded paths and contexts", "anchors": ["template.go: Variable, process", "eval.go: evalPath", "gettypes.go: _text"]}
{"id": "C62", "title": "Silent expressions", "statement": "$(expr) outputs nothing, and changes the context exactly as Eval of NewExpression(expr) does.", "quantifier": "all expressions and contexts", "why_tests_cant": "unbounded expressions and contexts", "anchors": ["template.go: Variable, process", "expression.go: NewExpression"]}
{"id": "C63", "title": "FromStringTypes converts unquoted words to Go values", "statement": "FromStringTypes returns the same tree as FromString, with each unquoted word replaced by an int64 if it is a decimal integer in range, else by a float64 if it is a number, else by a bool if it is true or false; other words and all quoted texts stay strings.", "quantifier": "all trees of words, all layouts, all quoted texts", "why_tests_cant": "unbounded words and trees", "anchors": ["parser.go: FromStringTypes", "lexer.go: ScalarType"]}
{"id": "C64", "title": "A block is one value", "statement": "After a backslash at the end of a line, the lines that are indented deeper become one string, joined by newlines and without their indentation; what follows the block is read as if the block were an ordinary value.", "quantifier": "all blocks at all depths, with any number of lines", "why_tests_cant": "unbounded lines and positions", "anchors": ["lexer.go: Block", "block.go: line"]}
{"id": "C65", "title": "The text of a single value is that value", "statement": "Text() of a graph whose only subnode is a leaf is the string of the content of that leaf.", "quantifier": "all contents", "why_tests_cant": "unbounded strings", "anchors": ["graph.go: Text, _text"]}
{"id": "C66", "title": "Comments at the end of a line are ignored", "statement": "Appending a blank, '#', a blank and any text to a line does not change the graph FromString returns.", "quantifier": "all lines and all comments", "why_tests_cant": "unbounded texts", "anchors": ["block.go: line", "lexer.go: Comment"]}
{"id": "C67", "title": "FromJSON then JSON gives the document back", "statement": "For every JSON document d, FromJSON(d).JSON() is a JSON text of the same document.", "quantifier": "all JSON documents, all map iteration orders", "why_tests_cant": "unbounded documents", "anchors": ["encoding.go: FromJSON, toGraph, JSON, json"]}
{"id": "C68", "title": "A remote call returns the handler's answer", "statement": "Client.Call(g) on a connection to a server with handler h returns h(g), as the binary format shows it.", "quantifier": "all requests, handlers and answers; all segmentations", "why_tests_cant": "unbounded graphs and schedules", "anchors": ["ogdlrf/client.go: Call, callV2", "ogdlrf/server.go: process"]}
{"id": "C69", "title": "A request is executed at most once", "statement": "Client.Call sends a request at most once to a server that executes it.", "quantifier": "all requests and failure histories", "why_tests_cant": "unbounded failure schedules", "anchors": ["ogdlrf/client.go: Call"]}
{"id": "C70", "title": "Connections are released", "statement": "After Close every connection that the client opened is closed.", "quantifier": "all failure histories", "why_tests_cant": "leaks appear only after particular failures", "anchors": ["ogdlrf/client.go: Call, Dial, Close"]}
{"id": "C71", "title": "Indexes and selectors find what they say", "statement": "Get(path) with [i] elements gives the node with the i-th subnode, name{} all the subnodes of the nodes with that name, name{k} those of the k-th one; indexes may be numbers or paths.", "quantifier": "all graphs, paths and values of indexes", "why_tests_cant": "the paths, graphs and index values are unbounded and combine freely", "anchors": ["eval.go: getPath, index", "graph.go: Get, GetAt, addEqualNodes"]}
{"id": "C72", "title": "Indexes, selectors and reserved words in expressions", "statement": "A path with indexes and selectors in an expression has the value of the node it leads to; followed by _len, _this, _thisString, _string or _json it has that property of the node.", "quantifier": "all contexts and paths", "why_tests_cant": "unbounded contexts and paths", "anchors": ["eval.go: evalPath"]}
{"id": "C73", "title": "Set with an index", "statement": "Set(path[i], v) puts v at place i of the node at path, changes nothing else, and Get(path[i]) then gives v.", "quantifier": "all graphs, paths, indexes and values", "why_tests_cant": "unbounded graphs and indexes", "anchors": ["graph.go: Set, set"]}
{"id": "C74", "title": "Wrong calls are refused", "statement": "Calling a Go function with a wrong number or wrong types of arguments gives an error, and the function is not called.", "quantifier": "all functions, arguments and contexts", "why_tests_cant": "all signatures and argument lists", "anchors": ["function.go: function"]}
{"id": "C75", "title": "Methods get adapted arguments", "statement": "obj.m(a, b, ...) calls the method m of the object stored at obj with the values of the arguments in order, converted to the types of the parameters, and has the value it returns.", "quantifier": "all methods, arguments and contexts", "why_tests_cant": "all signatures and argument lists", "anchors": ["function.go: function, convert"]}
{"id": "C76", "title": "Scalar follows its documented table", "statement": "Scalar gives integers of every type as int64 with the same value, floats as float64, booleans as they are, and texts as the int64, float64 or bool that they represent, otherwise unchanged.", "quantifier": "all contents", "why_tests_cant": "all integers, floats and texts", "anchors": ["gettypes.go: Scalar, number, isInteger, _boolf"]}
{"id": "C77", "title": "Changing the subnodes of one node changes no other node", "statement": "Add, AddNodes, NodeOrNew, Delete, DeleteAt, Clear and g.Out[i] = p change the list of subnodes of their receiver as documented (Add and AddNodes put in the very nodes given, which are shared from then on) and the list of no other node, also when graphs share nodes; no two nodes come to share a backing array.", "quantifier": "all histories of operations, all growth policies of append", "why_tests_cant": "append aliasing appears only with particular capacities after particular histories", "anchors": ["graph.go: Add, AddNodes, NodeOrNew, Delete, DeleteAt, Clear, Set, Merge, Copy, Clone"]}
{"id": "C78", "title": "Graphs behave as values", "statement": "For a client that gives a graph away when it puts it into another one (Add of a graph, AddNodes, Merge), any history of New, Add, AddNodes, Clone, Copy, NodeOrNew, NodeSet, Create, Delete, DeleteAt, Clear, Set, Substitute and Merge leaves in each of its graphs exactly the tree that the operations give when they are applied to trees as mathematical values; an operation on one graph never shows in another, and no node is reachable twice.", "quantifier": "all histories of operations, all trees, all growth policies of append", "why_tests_cant": "aliasing through shared nodes and backing arrays shows only after particular histories and capacities", "anchors": ["graph.go: New, Add, AddNodes, Copy, Clone, NodeOrNew, NodeSet, Create, Delete, DeleteAt, Clear, Set, Substitute, Merge"]}
{"id": "C79", "title": "Methods do not change the graph given as argument", "statement": "g.Add(x), g.AddNodes(x), g.Copy(x) and g.Merge(x) leave the graph x as it was.", "quantifier": "all graphs without common nodes, after all histories", "why_tests_cant": "all trees; the violation by Merge needs a particular pattern of names", "anchors": ["graph.go: Add, AddNodes, Copy, Merge"]}
{"id": "C80", "title": "Protocol 1 calls work however the bytes are segmented", "statement": "With protocol 1 (graphs without length prefix), the server answers each request that arrives with the answer of its handler, in order, with one write each, in whatever segments the request and the answer travel, and the client's Call returns that answer.", "quantifier": "all encodable requests and answers, all handlers, all segmentations", "why_tests_cant": "the segments that Read returns depend on the network", "anchors": ["ogdlrf/server.go: Serve1, process1", "ogdlrf/client.go: Call (protocol 1)", "binary.go: FromBinaryReader"]}
{"id": "C81", "title": "A request that is cut short is not executed", "statement": "If the connection ends or its deadline passes before a whole request has arrived, the server calls no handler for the part that did arrive, sends no answer, and stops serving that connection.", "quantifier": "all handlers, all cut points, all segmentations, both protocols", "why_tests_cant": "all points at which a connection can break", "anchors": ["ogdlrf/server.go: process1, process", "binary.go: parser"]}
{"id": "C82", "title": "Simplify of an XML document", "statement": "Simplify renames an element with an id (or a field with a name) to that value, keeps the rest of the element, leaves documents without these patterns as they are, and never panics on a graph that FromXML returned.", "quantifier": "all XML documents", "why_tests_cant": "all documents, all nestings of the patterns", "anchors": ["io/gxml/xml.go: Simplify, FromXML"]}
{"id": "C83", "title": "The HTML page of a graph", "statement": "Html returns a page with one line per node in depth-first order, indented by level, in which a node with subnodes is a link to its path, every link that is opened is closed, and texts appear as text; it never panics.", "quantifier": "all graphs, all base paths", "why_tests_cant": "all trees and all texts in them", "anchors": ["html.go: Html"]}
{"id": "C84", "title": "gpath . prints an equivalent text", "statement": "gpath with the path . prints a text that FromString reads as the same graph as the file, and running gpath . on that output prints it unchanged.", "quantifier": "all OGDL files in any layout", "why_tests_cant": "every tree, every layout, unbounded sizes", "anchors": ["cmd/gpath/main.go: main", "graph.go: Text", "parser.go: FromReader"]}
{"id": "C85", "title": "gpath composes", "statement": "gpath p.q on a file prints the same as gpath q on the output of gpath p on the file.", "quantifier": "all OGDL files and all paths p and q", "why_tests_cant": "all trees and all paths", "anchors": ["cmd/gpath/main.go: main", "graph.go: Get", "graph.go: Text"]}
{"id": "C86", "title": "gtemplate with several data files", "statement": "gtemplate with a template and several data files prints the same as with one data file that holds all of them one after the other.", "quantifier": "all templates, any number of data files", "why_tests_cant": "unbounded number of files, every template", "anchors": ["cmd/gtemplate/main.go: main", "parser.go: FromFile", "graph.go: AddNodes", "template.go: Process"]}
{"id": "C87", "title": "json2ogdl prints the JSON document", "statement": "The text that json2ogdl prints is read by FromString as the tree of the JSON document: a node per member or element, the scalars as leaves.", "quantifier": "all JSON documents", "why_tests_cant": "all nestings and contents", "anchors": ["cmd/json2ogdl/main.go: main", "encoding.go: FromJSON", "graph.go: Text"]}
{"id": "C88", "title": "xml2ogdl prints the XML document", "statement": "The text that xml2ogdl prints is read by FromString as the tree of the XML document: elements, attributes with @ and texts; with -id as the tree simplified by ids.", "quantifier": "all XML documents", "why_tests_cant": "all nestings and contents", "anchors": ["cmd/xml2ogdl/main.go: main, simplify, xml2graph", "graph.go: Text"]}
{"id": "C89", "title": "A log can be shared by goroutines", "statement": "Goroutines may call Add, AddBinary, Get and GetBinary on a log at the same time: no record is lost or changed, Get and GetBinary give the record at their position, and each Add returns the position of its record.", "quantifier": "all numbers of goroutines, handles on the file, records, file contents and schedules", "why_tests_cant": "the failures need a particular interleaving of seeks and writes", "anchors": ["log.go: Add, AddBinary, Get, GetBinary, OpenLog"]}
{"id": "C90", "title": "Connections of a server do not interfere", "statement": "Each connection of a server is served as if it were the only one, whatever the other clients send and however the goroutines are scheduled.", "quantifier": "all numbers of connections, requests, handlers and schedules", "why_tests_cant": "the schedules of goroutines cannot be enumerated", "anchors": ["ogdlrf/server.go: Serve, process"]}
{"id": "C91", "title": "A client can be shared by goroutines", "statement": "When goroutines call through one client at the same time each gets the answer to its own request.", "quantifier": "all numbers of goroutines, requests and schedules", "why_tests_cant": "the failure needs a particular interleaving of writes and reads", "anchors": ["ogdlrf/client.go: Call, callV2"]}
{"id": "C92", "title": "JSON on a shared graph", "statement": "Goroutines may call JSON on the same graph at the same time: each gets the text that a single call gives, and the graph stays unchanged.", "quantifier": "all graphs, numbers of goroutines and schedules", "why_tests_cant": "JSON reads like a read-only method; the failures need a particular interleaving", "anchors": ["encoding.go: JSON, json"]}
{"id": "C93", "title": "A record whose Add has returned is durable", "statement": "With the default settings of OpenLog a record whose Add has returned is there after a crash at any later moment, and Get at its position gives its graph, also when the log is written again after the crash.", "quantifier": "all histories, later concurrent Adds, crash points and parts of the file that the crash leaves", "why_tests_cant": "a crash can happen between any two steps and leave any part of what was not synchronised", "anchors": ["log.go: OpenLog, Add, AddBinary, Sync, SetSync, Get"]}
{"id": "C94", "title": "A log can be read after a crash", "statement": "After a crash in the middle of an Add the log can still be followed from position 0: it gives the complete records, and those that are added later.", "quantifier": "all histories, crash points and later Adds", "why_tests_cant": "a crash can cut the file at any byte", "anchors": ["log.go: Add, Get", "binary.go: Parse"]}
{"id": "C95", "title": "Arithmetic with floats and texts of numbers", "statement": "In expressions + - * / % with a float64 on one side convert the other side to float64; the text of a number counts as that number; two texts are put together by + and have no other operators.", "quantifier": "all operators, operand expressions and values of every Go number type", "why_tests_cant": "unbounded values and expressions", "anchors": ["eval.go: calc, evalBinary", "gettypes.go: _float64, _float64f, _int64"]}
{"id": "C96", "title": "Comparisons of numbers of different types", "statement": "< <= > >= == != between an integer and a float compare the numbers, from either side.", "quantifier": "all operand expressions and numbers", "why_tests_cant": "unbounded values and expressions", "anchors": ["eval.go: compare", "gettypes.go: _int64f, _float64f"]}
{"id": "C97", "title": "Updating a variable that does not exist or has no value", "statement": "x += e (and -=, *=, /=, %=) never crashes for lack of x: if the path x does not exist it is created, with the value of e, its negation, 0, the text infinity or the text undefined, and unrelated paths stay as they were.", "quantifier": "all contexts, paths and values", "why_tests_cant": "unbounded contexts and values", "anchors": ["eval.go: assign, calc", "graph.go: set"]}
{"id": "C98", "title": "Reading a graph depends on the graph only and changes nothing", "statement": "Len, Equals and the typed getters (String, Strings, StringCSV, StringTxt, Bytes, Int64, Float64, Bool, Number, Scalar, Interface and their This variants, with their defaults) give the answer that follows from the nodes, contents and order of the graph, whatever history of additions, removals, copies and merges produced it, and leave every graph as it was.", "quantifier": "all histories of operations, all graphs, all getters and defaults, all growth policies of append", "why_tests_cant": "unbounded histories; the answer must not depend on how memory came to be as it is", "anchors": ["gettypes.go: Scalar, ThisScalar, Interface, String, Int64, Float64, Bool, Number", "graph.go: Len, Equals, Delete, DeleteAt"]}
{"id": "C99", "title": "Evaluating an expression without assignments changes no node", "statement": "Evaluating an expression that holds no assignment in the context of a graph, or of the result of an earlier evaluation, gives the value or the error that follows from the tree of the context, whatever history made it; it panics only if that tree makes it panic. No existing node is changed, in this graph or another one, and the value is made of nodes of the context and of new nodes.", "quantifier": "all histories of operations, all graphs, all expressions without assignments, all sequences of evaluations, all growth policies of append", "why_tests_cant": "unbounded histories and expressions; the effect on nodes that other graphs use cannot be observed by looking at one graph", "anchors": ["eval.go: Eval, evalPath, getPath, evalExpression, evalBinary", "function.go: function", "graph.go: Get, Add, AddNodes, GetAt"]}
{"id": "C100", "title": "Assignments change the variable that is assigned and nothing else", "statement": "In any history of operations, evaluations and assignments, an assignment makes the path lead to the value in the graph in which it is evaluated, and leaves the rest of that graph and all other graphs as they are; what the client learns from evaluations is what follows from the trees.", "quantifier": "all histories of operations, evaluations and assignments, all graphs, paths and values, all growth policies of append", "why_tests_cant": "unbounded histories; sharing shows only in later operations on other parts", "anchors": ["eval.go: assign, evalBinary", "graph.go: set, AddNodes, Clone"]}
{"id": "C101", "title": "Get returns the node of the graph, not a copy", "statement": "Get with a path that leads to a node returns that node itself, and so does Eval unless the value is simplified to the content of an only subnode. What the client then does to the returned graph, through operations, evaluations and assignments, shows in the graph it came from at the end of the path and nowhere else in it, and all other graphs of the client stay as they were.", "quantifier": "all histories that made the graphs, all graphs without nil subnodes, all paths of names that lead to a node, all histories of operations, evaluations and assignments on the result, all growth policies of append", "why_tests_cant": "unbounded histories before and after the call; an aliasing mistake shows only in later operations on other graphs", "anchors": ["graph.go: Get, Node, Add, Set", "eval.go: getPath, Eval, evalPath", "gettypes.go: _simplify"]}
{"id": "C102", "title": "Graphs made by the parsers have no nil nodes and only plain contents", "statement": "A graph returned by FromReader, FromBytes or FromString is not nil, has no nil subnode at any depth, and its contents are strings, whatever bytes are delivered and in whatever pieces. The same holds for NewPath, NewExpression and NewTemplate. With FromStringTypes and FromJSON the contents are strings, int64, float64 or booleans, and with FromBinary they are strings or byte slices (the result of these two may be nil as a whole).", "quantifier": "all byte sequences, all ways in which a reader delivers them, all decoded JSON documents", "why_tests_cant": "unbounded texts, including invalid ones and ones longer than the buffer; the functions that walk graphs panic on a nil subnode, so one missed case breaks all of them", "anchors": ["event.go: Tree", "parser.go: FromReader, FromString, FromStringTypes", "block.go: line", "flow.go: NewPath, Expression", "expression.go: NewExpression, ast", "template.go: NewTemplate, flow", "binary.go: FromBinary", "encoding.go: FromJSON, toGraph"]}
{"id": "C103", "title": "Constants of expressions", "statement": "A constant of an expression evaluates to the int64 or float64 it writes, to true or false, or to its own text when it starts with a letter or a quote; a number that is not an int64 evaluates to nil without an error; any other text that is not an operator evaluates to the node itself. Evaluating a constant never changes the context.", "quantifier": "all constant texts, all contexts", "why_tests_cant": "unbounded texts; the borders of the int64 range and of the character classes", "anchors": ["eval.go: evalExpression", "gettypes.go: isNumber, ThisNumber"]}
{"id": "C104", "title": "A template renders what its context shows, however the context was made", "statement": "Processing a template in the context of a graph that a client has built writes the text, and leaves the context with the nodes, that the tree of the context determines, whatever calls built it and however its nodes lie in memory. Of the nodes that existed before, only the root of the context is changed (a loop variable is a new subnode of it); lists that loops walk through, other graphs and the template are left alone. The same holds for templates processed one after the other in one context.", "quantifier": "every history of calls that builds the graph, every template, every growth policy of slices, every sequence of templates", "why_tests_cant": "Sharing of nodes between the context, the loop variables and the values of paths depends on the history and on the nesting of loops; a test sees a few of them.", "anchors": ["template.go: Process, process", "graph.go: Add, Delete", "eval.go: Eval, evalPath, evalExpression"]}
{"id": "C105", "title": "Goroutines that render templates do not disturb one another", "statement": "Several goroutines process templates at the same time, each in a context of its own; the contexts are nodes that the client has made with New and to which it has added some of its graphs, and a graph may be in several contexts. Whatever the schedule, a goroutine that has returned has written the text that it writes when it runs alone, and none of the client's graphs has changed. A goroutine that gets its turn again and again returns, whatever the others do.", "quantifier": "every history of calls that builds the graphs, every number of goroutines and choice of graphs for their contexts, every list of templates for each, every finite schedule, and every infinite schedule in which a goroutine keeps getting its turn", "why_tests_cant": "The number of interleavings grows exponentially with the number of steps, and a test under one scheduler sees a few of them.", "anchors": ["template.go: Process, process", "graph.go: New, Add, Delete, Len", "eval.go: Eval"]}
{"id": "C106", "title": "A remote call returns a response or an error", "statement": "When Client.Call returns, it returns a graph with subnodes and a nil error, or a nil graph and an error; never both and never neither.", "quantifier": "all requests, all states of the client, all histories of dials, partial writes, segments of responses and ends of connections, both protocols", "why_tests_cant": "The ways in which a connection can fail at each write and read of up to three attempts are unbounded.", "anchors": ["ogdlrf/client.go: Call, callV1, callV2"]}
{"id": "C107", "title": "A stream of binary graphs is read back graph by graph", "statement": "When the binary forms of any graphs are written one after the other, calls of FromBinaryBufioReader on one buffered reader return these graphs in order (as the binary format shows them), however the bytes arrive, and then nil. FromBinaryFile returns the graph of a file that holds its binary form, and nil for a file that is missing or empty.", "quantifier": "all lists of encodable graphs and all segmentations of the stream", "why_tests_cant": "unbounded number of graphs and of ways to cut the stream", "anchors": ["binary.go: FromBinaryBufioReader, FromBinaryFile, newFileBinParser, parse"]}
{"id": "C108", "title": "Get and expressions agree on where a path leads", "statement": "Graph.Get of the text of a path, and the evaluation of the same text as an expression, agree on one graph: if Get returns a node, the expression has the value of that node (the node, or the content of its only subnode if that is a leaf); if Get returns nil, the expression has no value. Neither changes the graph.", "quantifier": "all paths of names, selectors and indexes, all graphs of data", "why_tests_cant": "Two separate walks through the graph have to agree at every step of paths of any length, in graphs of any shape.", "anchors": ["graph.go: Get", "eval.go: getPath, evalPath, Eval"]}
{"id": "C109", "title": "Processing a template changes only its variables", "statement": "Process, and Eval of an expression, leave the context as it is except for the subnodes named by the loop variables of the template and by the first names of the paths it assigns to: the content of the context and all its other subnodes, with everything below them, are the same and in the same order, and Node with any other name finds what it found before.", "quantifier": "all templates and expressions whose assignments are to paths that start with a name, wherever they occur, all contexts", "why_tests_cant": "Assignments may occur at any depth of any expression, in loops and branches taken any number of times, in contexts of any shape.", "anchors": ["template.go: Process, process", "eval.go: Eval, assign", "graph.go: set, Delete"]}
{"id": "C110", "title": "What FromBinary returns is given by the format", "statement": "FromBinary of a byte string that does not start with the header 01 47 00 returns nil. Of one that does, it returns the root _ and below it the nodes the bytes stand for, read one after another: a level, in one to four bytes, and a text that ends with a zero or the bytes of the chunks that follow a 01; a level of zero, a byte from F0 on or the end of the stream in the place of a level ends the list. Each node hangs below the last node before it whose level is one less, and is left out if there is none; nodes whose levels start with the first and grow by at most one are all in the tree, in the order of the stream. It returns nothing else, and a stream stands for one list of nodes.", "quantifier": "all byte strings, whether written by this program, another one or damaged", "why_tests_cant": "Streams have any number of nodes, of any levels in any order, with texts and chunks of any length, in numbers of four sizes, and may end anywhere.", "anchors": ["binary.go: FromBinary, parse, line, varInt, header", "event.go: AddAt, AddBytesAt, Tree"]}
{"id": "C111", "title": "Get and GetBinary are exact at every position of every file", "statement": "At any position of any file, also one that is not the start of a record, Get and GetBinary do one of four things. At the end of the file Get returns nil and -1. Where there is no header Get returns nil and the position after the bytes it looked at (those that agree with the header and the first that does not), and GetBinary no bytes. Where there is a record Get returns its graph and the position of the byte after it, and GetBinary the bytes of the record and their number; FromBinary of these bytes gives the graph that Get returns. Where the file ends inside a text neither returns. The next position is always later than the one given and not after the end of the file, so following positions ends.", "quantifier": "all file contents (written by a log, another program, or damaged) and all positions", "why_tests_cant": "Files have any length and content, positions can be anywhere in them, and records have any number of nodes of any form.", "anchors": ["log.go: Get, GetBinary", "binary.go: header, line, parse"]}
{"id": "C112", "title": "A cut stream gives the first nodes", "statement": "If a binary stream is cut anywhere (a crash, a closed connection) and FromBinary returns on what is left, it returns nil, if the header was cut, or the first nodes of the stream in their order: no node that was not in the stream, none changed, except that the last may have only the first bytes of a binary content. Of the binary form of a graph it returns the tree of the first nodes of the graph. Get of a log whose last record was cut does the same, without an error.", "quantifier": "all streams (written by Binary or by another program) and all places to cut", "why_tests_cant": "Streams and the places to cut them are unbounded, and a cut may fall inside a level, a text, a chunk length or a chunk.", "anchors": ["binary.go: FromBinary, line, varInt", "log.go: Get"]}
{"id": "C113", "title": "The methods of a lexer read what they say", "statement": "Methods of a Lexer called one after the other (Byte, PeekByte, String, StringStop, Break, End, WhiteSpace, Space, SpaceMax, Integer, Number, Operator, TemplateText, Comment, Quoted, Scalar, ScalarType, Block, Token8) each return what they find at the beginning of what the calls before left of the input, and leave the rest: the longest run of bytes of their kind, also when it spans refills of the buffer, the longest word of letters, digits and underscores in UTF-8, or the text between two quotes, with escaped quotes and the indentation of its lines taken off. A method that finds nothing leaves the input as it was. Break takes NL, CR or CR NL, and SpaceMax at most the given number of blanks.", "quantifier": "all inputs of any length, all sequences of calls of any length, all sets of stop bytes and all maximums", "why_tests_cant": "Inputs and sequences of calls are unbounded, a run may fall anywhere across the refills of the buffer, and the end of the input must be seen in the same way by all methods.", "anchors": ["lexer.go: Lexer, NewLexer, Byte, PeekByte, String, StringStop, Break, End, WhiteSpace, Space, SpaceMax, Integer, Number, Operator, TemplateText, Comment, Quoted, Scalar, ScalarType, Block, Token8"]}
{"id": "C114", "title": "A line is below the nearest line before it that is indented less", "statement": "In a text read by FromString, FromReader or FromStringTypes, a line goes below the first value of the nearest line before it that is indented less, after the other values of that line, and beside the lines before it that go there too; lines that no less indented line precedes are at the top. It does not matter by how much lines are indented, whether lines beside each other are indented alike, or whether spaces or tabs are used.", "quantifier": "all texts of any number of lines, each indented by any spaces and tabs (fewer than 2048) and with any values, a comment or nothing in it", "why_tests_cant": "The indentations of the lines are an unbounded sequence of numbers and the place of a line depends on all those before it; tests try a few regular layouts.", "anchors": ["block.go: line, tree, Ogdl, OgdlTypes", "event.go: Inc, Dec, SetLevel, Tree", "parser.go: FromString, FromReader"]}
{"id": "C115", "title": "A lexer is a cursor over the runes of a text", "statement": "Rune, PeekRune and UnreadRune of a Lexer, called in any order, behave as a cursor over the runes of the text: Rune returns the rune at the place and goes on, PeekRune returns it and stays, UnreadRune goes back one rune or reports an error at the beginning. Bytes that are not UTF-8 are read as U+FFFD, one at a time, and the end of the text is reported.", "quantifier": "all texts of any length, all sequences of calls of any length", "why_tests_cant": "Texts and sequences of calls are unbounded, a rune may fall across the refills of the buffer, and a step back may follow any other call.", "anchors": ["lexer.go: Lexer, NewLexer, fill, Rune, PeekRune, UnreadRune, ErrInvalidUnread"]}
{"id": "C116", "title": "Error of a lexer returns the error of its reader", "statement": "Error of a Lexer returns the error of the reader, once: nil before the reader has failed or ended and after the error has been returned, and an error when all bytes have been read and Byte reports the end.", "quantifier": "all texts of any length, all ways a reader delivers them, all sequences of calls of Byte, UnreadByte, Rune and Error", "why_tests_cant": "Texts and sequences of calls are unbounded, and whether the reader is asked again depends on the length of the text and on how much each read delivers.", "anchors": ["lexer.go: Lexer, NewLexer, fill, Byte, UnreadByte, Rune, Error"]}
{"id": "C117", "title": "Getters return the value or the default", "statement": "Int64(d), Float64(d) and Bool(d) return the number or boolean that the value of the graph (the content of its first subnode) is or writes, whatever d, and d (or 0, NaN, false) exactly if it is none; String(d), StringTxt(d) and StringCSV(d) return d instead of an empty text.", "quantifier": "all graphs, nil included, all contents and all defaults", "why_tests_cant": "unbounded graphs, contents of every Go type and texts of any length", "anchors": ["gettypes.go: Int64, Float64, Bool, String, StringCSV, StringTxt, _int64f, _float64f, _boolf"]}
