#!/usr/bin/env python3
"""Regenerate MANIFEST.json: theorem names are collected from lean/Verif/Props."""
import glob, json, os, re
root = os.path.dirname(os.path.dirname(os.path.abspath(__file__)))
STATUS = {
    "C01": ("proved", ""),
    "C02": ("proved", ""),
    "C03": ("partial", "Levels below 2^21 are proved; the four-byte class is refuted (binary.go:189 writes 0xff)."),
    "C04": ("partial", "Refuted for streams that end inside a text node (infinite loop); proved: no panic, and it returns on exactly the streams that do not (C04_exact)."),
    "C05": ("proved", ""),
    "C06": ("proved", ""),
    "C07": ("partial", "Bytes are exact; the second result is the record length, not the next position (refuted)."),
    "C08": ("proved", ""),
    "C09": ("partial", "Refuted for contents Text does not quote (top-level spaces, lone backslash, leading backtick, backslash before a quote). Proved for all other trees, with empty nodes transparent; texts without 2048 blanks in a row."),
    "C10": ("proved", ""),
    "C11": ("partial", "Proved for all trees and all indentations below 2048 columns (the lexer cannot step back further); refuted for an indentation of 4095 blanks (C11_refuted)."),
    "C12": ("partial", "Proved for texts without 2048 blanks in a row, so for chains of fewer than 2048 words."),
    "C13": ("proved", "C13_any_levels gives the tree for every history, whatever its levels."),
    "C14": ("partial", "Refuted: a reader that delivers one byte per call, or data together with io.EOF, loses input. Proved: the graph depends only on the bytes delivered, and every way of filling the reads gives the same graph."),
    "C15": ("proved", ""),
    "C16": ("partial", "Proved for texts that fit the buffer (Spec.Fits), for all forms of path elements; refuted for a name of 4096 letters, on which NewPath never returns."),
    "C17": ("partial", "Proved for all graphs without functions in them and all paths that fit the buffer (Spec.Fits); panics included. Refuted for longer paths: Get of `b` and a name of 4094 letters does not return."),
    "C18": ("partial", "Proved for all graphs of data (no functions, no nil subnodes), all values and all paths that fit the buffer (Spec.Fits). Refuted for a name of 4096 letters: the call does not return."),
    "C19": ("partial", "Same restrictions as C18. Refuted for a name of 4096 letters: the call does not return."),
    "C20": ("partial", "Same restrictions as C18. Refuted for a name of 4096 letters: the call does not return."),
    "C21": ("partial", "String, Bytes and Int64 are proved for all graphs and all non-empty paths; with the empty path Get finds nothing (refuted). Float64 is proved if numbers read back from their text, and refuted for unsigned integers above the largest int64. Bool is refuted for numbers and proved for texts, byte slices and booleans."),
    "C53": ("partial", "Refuted for 4096 letters (Rune does not check for the end); proved for all inputs that fit the buffer (Spec.Fits)."),
    "C55": ("partial", "Refuted by the five bytes of a(\u00a2); proved for all ASCII texts that fit the buffer (Spec.Fits), and for all texts in which bytes that look like letters start letters."),
    "C22": ("partial", "Refuted when contents are []byte (== panics) or NaN, and for nil graphs. For graphs with any contents: Equals returns true exactly if the shapes are the same and the contents are equal in Go at every place (C22_exact), it is symmetric and transitive (C22_equivalence), and it returns if the contents of the receiver can be compared (C22_returns). Reflexive, and the same as identity of the trees, for contents that are nil, texts, booleans and integers."),
    "C23": ("partial", "Clone gives the same tree, and a clone Equals the graph exactly if its contents are equal to themselves (C23_clone_exact; refuted for []byte); Copy drops nodes with nil content (refuted). What Copy adds is proved exactly for contents that are not graphs (C23_copy_exact_partial)."),
    "C24": ("proved", "On memory with addresses and backing arrays, for every growth policy of append and every history of operations of two clients. Graphs as contents are shared (C24_content_refuted), as documented."),
    "C77": ("proved", "Histories start from empty memory; the client may do everything but g.Out = x.Out[:n], which itself makes arrays shared."),
    "C78": ("proved", "A refinement: the pointer heap against the tree model, method by method and for whole histories. The path of Set is given parsed, with plain names and indexes (Spec.PathSteps)."),
    "C79": ("partial", "Refuted for Merge, which puts the nodes of its argument into the receiver and then merges later ones into them. Proved for Add, AddNodes and Copy."),
    "C25": ("partial", "Refuted for two []byte contents (panic). C25_exact: for contents of all types, exactly the subnodes that are equal in Go are removed, and it panics exactly if a comparison does."),
    "C26": ("proved", "GetAt on a nil graph panics (C26_nil_receiver)."),
    "C27": ("proved", "For all graphs without nil subnodes and all values."),
    "C28": ("proved", ""),
    "C29": ("partial", "Refuted: the key used is the text of the first subnode, not of the node. Proved, for all graphs without nil subnodes: the exact result of Merge (C29_exact_partial, against Spec/Merge.lean), that it returns, keeps the nodes of the receiver in order, leaves those not named by a value of the source unchanged and adds only nodes of the source (C29_keeps_partial), and that the subnodes of the node named are replaced (C29_over_partial); disjoint keys are appended. Missing: one node per key, which is false."),
    "C30": ("proved", "Sorting uses any correct sort routine; the keys are computed once, which is the same when the sort field contains no assignment."),
    "C31": ("proved", ""),
    "C32": ("partial", "Proved for expressions of any length, with argument lists of any nesting, that fit the buffer (Spec.Fits); arguments of a call that is the only operand are not grouped (C59_refuted). The value of the grouping is proved for integers, floats, texts, paths and the operators on them. Refuted for a path of 4096 letters: reading it does not end."),
    "C33": ("partial", "Refuted: division and remainder by zero panic. Proved for all other int64 operands, of any Go integer type and from any operand expressions."),
    "C34": ("proved", ""),
    "C35": ("proved", ""),
    "C36": ("proved", ""),
    "C37": ("partial", "Proved for paths of names, and for paths of names followed by an index (a.b[3] = e, a.b[3] += e: the place, the other places, unrelated paths), for values that are not graphs and texts that fit the buffer (Spec.Fits). Refuted for texts of 4096 bytes: reading them does not end."),
    "C38": ("partial", "Refuted for eight texts with a meaning in the tree of a template, such as !p; proved for all others, of any length."),
    "C39": ("partial", "Proved for chains of any length and nesting in texts that fit the buffer (Spec.Fits); longer texts are missing."),
    "C40": ("partial", "Refuted for a list of one value, over which a loop does nothing. Proved for all other lists, with bodies without break and without a loop on the same variable; texts that fit the buffer (Spec.Fits). About trees: in memory for bodies without assignments, or with assignments of numbers and texts to names (C104)."),
    "C41": ("partial", "Refuted for a break inside an if. Proved for a break directly in the body of a loop, and outside of loops. What a break inside an if does, anywhere in a template, is proved exactly (C41_if): it ends the body of the if and nothing else."),
    "C42": ("partial", "Refuted: $() panics, and $for(v, _this)=$v$end does not end in memory. Proved: processing any graph as a template ends on trees, and in memory for the templates of C104."),
    "C60": ("partial", "Proved for well-formed templates that fit the buffer (Spec.Fits). Refuted for two templates that fit alone but not together."),
    "C61": ("partial", "Proved for paths of names and texts that fit the buffer (Spec.Fits). Refuted for a variable of 4095 letters."),
    "C63": ("partial", "Proved for trees of words in any layout with indentations below 2048 columns, and for quoted texts at the top level; longer runs of blanks and quoted texts further down are missing. ParseFloat is a parameter."),
    "C64": ("partial", "Refuted below the top level, where the line after the block moves up. Proved for unindented lines."),
    "C65": ("partial", "Refuted for values in quotes, which are unquoted; proved for values that do not start with a quote and have no CR."),
    "C43": ("partial", "JSON returns for every graph without nil subnodes and leaves it unchanged; the text is JSON of the document for graphs in document form (RootStandsFor). Refuted otherwise: sibling leaves get no comma, names of larger members are lost, nil subnodes panic and clear the root."),
    "C44": ("partial", "Proved for documents that are objects: every scalar, array and object below is found at its place. Refuted for a top level array (only the first element is kept) and for null."),
    "C45": ("partial", "Proved, with the message, for schemas without empty texts and !binary and graphs of scalars. Refuted: !binary accepts nothing, empty schema texts, nil contents and nil graphs panic."),
    "C48": ("proved", "For every history of AddRoute with non-nil handlers."),
    "C49": ("partial", "Server: proved when no header and no body is cut; refuted for every cut of the body and of the header. Client: proved for every segmentation that does not cut the header; refuted for a cut header."),
    "C50": ("proved", "For every history of dials, connections and responses on which each attempt returns. Both protocol versions."),
    "C51": ("proved", "On the tokens of every document, complete or cut anywhere; the XML decoder, the removal of accents and the trimming of text are parameters."),
    "C68": ("partial", "Proved from end to end for protocol 2, for encodable requests and answers with nodes and segmentations that cut no header and no request body; C49 and C69 refute it for the others."),
    "C69": ("partial", "Refuted: a request whose answer has no nodes is executed three times. Proved: a request is written at most once on each of at most three connections, again only after a failed attempt (C69_attempts_partial), and once when the first attempt gets an answer with nodes."),
    "C70": ("partial", "Refuted: a connection on which an attempt fails is never closed. Proved for every history of a client: the connections that stay open are exactly those on which an attempt failed and was repeated, at most two for each call, none if first attempts succeed."),
    "C71": ("partial", "Proved for all paths of names, selectors and indexes whose index is in range. Refuted: an index beyond the end does not give nil, and only the first operand of an index is used."),
    "C72": ("partial", "Proved for paths on which every step finds something. Refuted for a path of 4096 letters: reading it does not end."),
    "C73": ("partial", "What Set does is proved exactly; Get afterwards when the index is at most the number of subnodes. Refuted beyond that (nil pointers), for an index inside the path and for an index given by a path."),
    "C74": ("partial", "Proved for arguments that have a value. Refuted: a surplus argument without value panics."),
    "C75": ("partial", "Proved for arguments that can be adapted. Refuted: one that cannot be adapted panics."),
    "C76": ("partial", "Refuted: uint64 values above the int64 range become negative; texts of blanks panic (C54)."),
    "C67": ("partial", "Proved for flat objects of two or more members that are integers, texts and floats exact with six decimals. Refuted for one member, booleans, nested objects, arrays as members or as the document, and documents that are a single value."),
    "C66": ("partial", "Refuted for lines that end with CR NL; proved for NL on any line of any tree in any layout."),
    "C62": ("partial", "Proved, in both directions, for texts that fit the buffer (Spec.Fits); longer texts are missing."),
    "C52": ("partial", "Proved for every int64, all graphs of data and all paths of names that fit the buffer (Spec.Fits), also after a binary round trip of the whole graph. Refuted for a name of 4096 letters: the call does not return."),
    "C54": ("partial", "Refuted for every text of one or more spaces and tabs (panic), and for Eval of !e; proved for all other texts."),
    "C57": ("partial", "Refuted: !a ignores the context and !a.b panics. Proved for negation nodes in a parsed tree."),
    "C58": ("partial", "Refuted: every parenthesised expression with an operator panics (C58_panics). A single operand in parentheses gives a group that holds its value."),
    "C59": ("partial", "Refuted: f(1 + 2) is called with 1, and a function below another node gets no arguments. Proved for f(a, b, ...) with any number of single operands."),
    "C46": ("partial", "Refuted: a single leaf made of CRs and at most one quote panics. Proved: exactly these panic."),
    "C56": ("partial", "Refuted for an unindented blank line between nodes of the third level; proved for filler lines indented at least as much as the line that follows, for any indentation of the lines."),
    "C47": ("partial", "StringCSV panics exactly on the graphs without subnodes (C47_refuted, C47_csv_exact); proved for all others."),
    "C80": ("partial", "Proved for requests that come one after the other, in any segments. Refuted: a request that arrives in one segment with the one before it is never answered."),
    "C81": ("partial", "Proved for protocol 2. Refuted for protocol 1: at the deadline the part is executed as if it were the request, and if the connection is closed the server reads for ever."),
    "C82": ("partial", "The result is proved exactly for documents in which no element name starts with @ and no text is @id. Refuted: all but the last node of an element with an id are lost, and a text @id panics."),
    "C83": ("partial", "Proved for texts without blanks, quotes, commas, parentheses and angle brackets; Html returns for all graphs. Refuted: links with a blank in the text are not closed, texts are not escaped, and the quotes of a single quoted text cut the page."),
    "C84": ("partial", "Proved for files that start unindented and whose contents Text can write. Refuted for a text with a space at the top level."),
    "C85": ("partial", "Proved for paths of names that fit the buffer (Spec.Fits) when the contents printed can be written. Refuted for a text with a space."),
    "C86": ("partial", "Proved for files that are not empty, start unindented and end with a line end. Refuted: if the first file is empty all others are ignored."),
    "C87": ("partial", "Proved for objects whose contents Text can write. Refuted for a text that starts with a backtick."),
    "C89": ("partial", "Proved for every schedule: Adds through one handle lose and change nothing, and what was in the file stays and is read correctly by readers with handles of their own. Refuted: the returned position can be that of another record, a Get through the handle of an Add can make it overwrite a record, and Adds through two handles overwrite each other."),
    "C90": ("partial", "Proved for every schedule and handlers that do not panic. Refuted: a panic of a handler ends the server for all clients."),
    "C91": ("partial", "Proved for goroutines with connections of their own. Refuted for a shared client: each goroutine gets the answer of the other."),
    "C92": ("partial", "The text is proved for graphs with subnodes whose root is not _. Refuted: the content of the root is lost, and with the root _ another text is returned."),
    "C93": ("proved", "For every history of Adds, every schedule of later Adds through the same handle, every crash and every later content; Sync is taken to bring the whole file to the disk. C93_unsynced shows that the synchronisation is needed."),
    "C94": ("partial", "Proved for a file cut between two records; records added later are found at their positions after any cut. Refuted: a cut record swallows the next one, or makes Get loop for ever. What Get returns at the record that was cut is proved (C94_cut): nil or the first nodes, without an error."),
    "C95": ("partial", "Proved for floats, for numbers with the text of a number on the right, and for two texts. Refuted: the text of a number on the left is put together with the number by every operator. A remainder by a number below one panics (C95_zero)."),
    "C96": ("partial", "Proved for a float on the left. Refuted for an integer on the left, which is compared with the integral part: 1 == 1.5 is true. The behaviour of floats is that of the environment (Ext)."),
    "C97": ("partial", "Refuted for a place that does not exist (C97_index_refuted: a[3] -= 7 creates the text 7, not -7). Proved for paths of names that lead nowhere, values that are not graphs and texts that fit the buffer (Spec.Fits). Refuted for a path to a node without subnodes: the update panics."),
    "C98": ("partial", "C98_unchanged is complete. C98_partial covers every getter and every history of C78, except Scalar and ThisScalar on a graph without subnodes after a removal; there C98_refuted and C98_this_refuted show a panic. Contents are not graphs."),
    "C99": ("partial", "Proved for every history of C78 and all expressions without assignments, one after the other, also in the context of earlier results. Graphs, expressions and results of functions have no nil subnodes."),
    "C100": ("partial", "Proved for every history of C78 with evaluations and assignments between, where the assigned value is not a graph. Refuted for graphs: the value is not copied, so a later assignment shows in two places (C100_refuted), and a graph assigned into itself makes a cycle on which Clone does not end (C100_cycle_refuted). Assignments within expressions are missing."),
    "C101": ("partial", "Proved for paths of names in graphs without nil subnodes, for every history before and after. Refuted for paths with an index: Get returns a new node above the one found (C101_refuted); for an index at the end the subnode of that new node is the node of the graph (C101_index_partial), and with names after the index the result itself is (C101_through_partial), as it is with names after a selector (C101_selector_partial). A selector at the end, more than one selector or index and nil subnodes are missing."),
    "C102": ("proved", ""),
    "C103": ("proved", ""),
    "C104": ("partial", "Refuted for loops over _this, which do not end, for assignments through a loop variable, which change the list, and for assignments of graphs, which share nodes. Proved for templates without assignments, or with assignments of numbers, texts and operations to names that no loop goes over, without loops over _this or a group, any number of them one after the other, in a non-nil graph without nil subnodes, with functions that return no nil graphs (no graphs, if there are assignments)."),
    "C105": ("partial", "Refuted for goroutines that share a context. Proved for contexts of their own that share graphs, for templates as in C104; the evaluation of one expression is one step, memory is sequentially consistent."),
    "C106": ("partial", "Refuted for protocol 2 when a read of the response returns zero bytes without an error (nil and no error). Proved for protocol 1 on all connections and for protocol 2 on connections without such reads."),
    "C107": ("proved", "For streams that arrive in segments that are not empty."),
    "C108": ("partial", "Refuted for an index that is followed by other elements. Proved for names, selectors and an index at the end that is in range, in graphs of data, for texts that fit the buffer."),
    "C109": ("partial", "Refuted for an assignment to something that is not a path ($(1 = 2) replaces all subnodes of the context). Proved on trees for all templates and expressions whose assignments, at any depth, are to paths that start with a name."),
    "C110": ("proved", "On every byte string, with the exact tree for streams with any levels. C04_exact says on which strings it returns."),
    "C111": ("proved", "Files are byte strings; Seek and ReadAt on them do not fail (positions from 0 on)."),
    "C112": ("proved", "On which cuts it returns is C04_exact; C94_cut is the same for a log."),
    "C113": ("partial", "What each method returns and leaves is proved exactly, for all sequences of calls. Refuted: Break on a CR alone, Number on a sign alone, SpaceMax on mixed blanks or with zero, and Quoted on a text that is not closed. Token8 is proved for texts that fit the buffer (C113_words_partial). Rune and UnreadRune are left out."),
    "C114": ("partial", "Proved for texts whose first line is not indented by a mixture of blanks, in which no line is indented less than the first, and each line without values at least as much as the next; C114_levels says what is read without the last two conditions. Refuted: lines less indented than the first are lost, and a first line indented by spaces and tabs ends the parse. Lines with a block are covered if they are not indented (C64)."),
    "C115": ("partial", "Proved for texts of any length in which no rune is cut at an end of the buffer, invalid bytes included, and all sequences of calls that stay within the text and never go more than 512 runes back (C115_long_partial); for texts of at most 4095 bytes without the last condition, and beyond the end as far as the buffer has room (C115_partial). Refuted: the end is read as a rune 0 without an error (C115_end_refuted), at the end of a text of 4096 bytes the second half is read again for ever (C115_again_refuted), and a rune that begins at the last byte of the buffer is cut (C115_cut_refuted)."),
    "C116": ("partial", "Proved: an error is returned once, and only when nothing is left in the reader (for readers that return io.EOF alone). What Error returns of a new lexer and after all bytes is proved exactly (C116_start, C116_end, C116_never). Refuted: of a text of less than 2048 bytes the end is returned before a byte has been read, and of most longer ones it is never returned."),
    "C117": ("partial", "Proved for Int64 (it panics on a value that is a nil graph, C117_int_refuted), Float64 and Bool. Refuted for String, StringTxt and StringCSV of a graph without subnodes: the default is ignored, and StringCSV panics."),
    "C88": ("partial", "Proved for documents whose contents Text can write, with -id for those without @ names and named fields. Refuted for a text that starts with a backtick."),
}
thms = {}
for f in sorted(glob.glob(os.path.join(root, "lean/Verif/Props/*.lean"))):
    for m in re.finditer(r"^theorem (C\d\d\d?)(_\w+)?(?=\s)", open(f).read(), re.M):
        thms.setdefault(m.group(1), []).append("Ogdl." + m.group(1) + (m.group(2) or ""))
claims = []
for line in open(os.path.join(root, "properties.jsonl")):
    if not line.strip():
        continue
    pid = json.loads(line)["id"]
    if pid in STATUS:
        st, note = STATUS[pid]
        claims.append({"property": pid, "status": st, "theorems": thms.get(pid, []), "note": note})
json.dump({"claims": claims}, open(os.path.join(root, "MANIFEST.json"), "w"), indent=1)
print(len(claims), "claims;", "without status:", [p for p in thms if p not in STATUS])
