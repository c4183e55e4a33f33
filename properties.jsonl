{"id": "C01", "title": "Scanning always terminates", "statement": "From any scanner (any input text, any initial offset, any initial ScannerState, pseudo-close on or off), calling scan() repeatedly returns EOS after at most 2*(remaining bytes)+1 calls, unless a call panics; hence parse_html_document and every service loop that scans to EOS terminates.", "quantifier": "all inputs, all initial offsets, all initial scanner states, both flags", "why_tests_cant": "termination for every malformed text cannot be sampled", "anchors": ["src/parser/html_scanner.rs: Scanner::scan, Scanner::internal_scan", "src/parser/html_parse.rs: parse_html_document"]}
{"id": "C02", "title": "Tokens tile the input without gaps or overlaps", "statement": "Successive tokens are contiguous: the first token starts at the initial offset, each next token's get_token_offset equals the previous get_token_end, EOS is at the end of the source; concatenating all token texts gives back exactly the scanned text.", "quantifier": "all inputs, offsets, initial states", "why_tests_cant": "a gap or overlap could appear for any malformed markup", "anchors": ["src/parser/html_scanner.rs: scan, get_token_offset, get_token_end, get_token_text"]}
{"id": "C03", "title": "Only pseudo-close tokens may be empty", "statement": "With emit_pseudo_close_tags=false every non-EOS token has length > 0. With it true the only zero-length non-EOS tokens are StartTagClose and EndTagClose, and they are emitted exactly in front of a '<'.", "quantifier": "all inputs and reachable scanner states", "why_tests_cant": "depends on every state/character combination", "anchors": ["src/parser/html_scanner.rs: internal_scan (WithinTag, WithinEndTag), get_token_length"]}
{"id": "C04", "title": "EOS means end of input, and is absorbing", "statement": "scan() returns EOS if and only if the position is at the end of the source, and after EOS every further scan() returns EOS and leaves offset, end and scanner state unchanged.", "quantifier": "all inputs and scanner states", "why_tests_cant": "requires all states", "anchors": ["src/parser/html_scanner.rs: scan, internal_scan, finish_token"]}
{"id": "C05", "title": "The 'has not advanced' recovery path is dead", "statement": "scan() never takes the branch that logs 'Scanner.scan has not advanced' and force-advances one byte: for every input and every scanner state the internal scan already advanced, reached EOS or emitted a permitted pseudo-close token.", "quantifier": "all inputs, all scanner states, both flags", "why_tests_cant": "unreachability is a universal statement", "anchors": ["src/parser/html_scanner.rs: scan lines 63-74"]}
{"id": "C06", "title": "Token stream grammar", "statement": "In every token stream starting in WithinContent: StartTag is preceded by StartTagOpen with at most whitespace between; EndTag is preceded by EndTagOpen with at most whitespace between; DelimiterAssign is preceded by AttributeName with at most whitespace between; AttributeValue immediately follows DelimiterAssign; AttributeName, StartTagClose and StartTagSelfClose only occur inside an opened start tag, EndTagClose only inside an opened end tag.", "quantifier": "all inputs, all positions in the stream", "why_tests_cant": "consumers (parser unwraps, completion) rely on it for every input", "anchors": ["src/parser/html_scanner.rs: internal_scan", "src/parser/html_parse.rs: parse_html_document (get_mut().unwrap(), end_tag_start.unwrap())"]}
{"id": "C07", "title": "Tokens contain only what their type says", "statement": "A Content token never contains '<' after its first byte, a Comment token never contains '-->', a Doctype token never contains '>', a Whitespace token consists only of whitespace bytes, StartCommentTag/EndCommentTag/EndDoctypeTag/StartTagClose(non-empty)/EndTagClose(non-empty)/StartTagSelfClose/DelimiterAssign/StartTagOpen/EndTagOpen have exactly their literal text, StartTag/EndTag texts are element names.", "quantifier": "all inputs", "why_tests_cant": "every token of every document", "anchors": ["src/parser/html_scanner.rs: internal_scan, next_element_name, next_attribute_name"]}
{"id": "C08", "title": "The scanner panics in exactly two situations", "statement": "On every UTF-8 text scan() returns, except in exactly two situations: (1) the previous token ends in the middle of a character inside a start tag, behind white space followed by unexpected characters only; that character is then a non-ASCII white-space or C1 control character; (2) the value of an attribute `type` begins with a quote that is not closed and the text ends with a non-ASCII character. While the scanner returns, get_token_text() returns for every token that is neither Unknown nor directly behind an Unknown token. For ASCII texts nothing panics.", "quantifier": "all UTF-8 texts, all start offsets on a character boundary, all start states, both flags, all numbers of calls", "why_tests_cant": "panics hide in multi-byte corner cases", "anchors": ["src/parser/html_scanner.rs: scan, get_token_text, next_attribute_name, BeforeAttributeValue"]}
{"id": "C09", "title": "Content positions are restart points", "statement": "A fresh scanner started in WithinContent at an offset where another scanner is in WithinContent produces the same tokens (type, offset, end, error, state) from there on, whatever that other scanner had scanned before. Services rely on this by re-scanning from node.start.", "quantifier": "all inputs, all histories of the first scanner", "why_tests_cant": "hidden scanner fields (has_space_after_tag, last_tag, ...) must not leak for any history", "anchors": ["src/parser/html_scanner.rs: Scanner::new, internal_scan", "src/services/html_highlight.rs: get_tag_name_range"]}
{"id": "C10", "title": "Where the content of script and style elements ends", "statement": "A script token ends at the one place where the content of a script ends: at the first `</script` that is not in a script within a comment (reading `<!--`, `-->`, `<script` and `</script` from left to right), or at the end of the text. A style token ends at the first `</style` or at the end of the text. The end tags count in lower-case letters only, also in case-insensitive mode (by witness: `<script>a</SCRIPT>` is not ended).", "quantifier": "all texts, scanner states and settings", "why_tests_cant": "The end depends on all marks in the script and their order, without a bound; needs all case variants", "anchors": ["src/parser/html_scanner.rs: REG_SCRIPT_COMMENT, REG_STYLE, WithinScriptContent, WithinStyleContent"]}
{"id": "C11", "title": "The parser does not panic", "statement": "None of the unwrap() calls of parse_html_document (pending attribute lookup, end_tag_start, parent stack) can fail on any input: it returns a document unless the scanner panics, which happens exactly in the two situations of C08. For ASCII texts, and for UTF-8 texts without non-ASCII white space and C1 controls that end in an ASCII character, it never panics.", "quantifier": "all inputs", "why_tests_cant": "unwrap safety depends on scanner/parser interplay for every input", "anchors": ["src/parser/html_parse.rs: parse_html_document"]}
{"id": "C12", "title": "The document tree is well nested", "statement": "In every parsed document each node satisfies start < end <= text length, children lie inside their parent (after its start tag, before its end tag), and siblings are ordered and disjoint (end of one <= start of the next).", "quantifier": "all inputs, all nodes", "why_tests_cant": "every malformed document must still give a laminar tree", "anchors": ["src/parser/html_parse.rs: parse_html_document", "src/parser/html_document.rs: Node"]}
{"id": "C13", "title": "One node per opening bracket, in document order", "statement": "The pre-order list of node starts of the parsed document equals the list of offsets of the StartTagOpen tokens of the text, in order: no element is dropped, duplicated or reordered whatever the end tags look like.", "quantifier": "all inputs", "why_tests_cant": "holds across all recovery paths", "anchors": ["src/parser/html_parse.rs: parse_html_document"]}
{"id": "C14", "title": "Node offsets point at the right characters", "statement": "For every node of every parsed document: text[start] is '<'; if end_tag_start is Some(e) then text[e..e+2] is '</' and start_tag_end is Some(s) with start < s <= e < end; if start_tag_end is Some(s) then text[s-1] is '>'; if the node is closed then text[end-1] is '>' or the end tag was cut by a '<'.", "quantifier": "all inputs, all nodes", "why_tests_cant": "offset arithmetic for every recovery path", "anchors": ["src/parser/html_parse.rs: parse_html_document", "src/parser/html_document.rs: Node"]}
{"id": "C15", "title": "node.tag is the source text of the tag name", "statement": "If node.tag is Some(t) then t is a non-empty element name and occurs in the text after the node's '<', separated from it by whitespace only; if no whitespace follows '<' then text[start+1..start+1+t.len()] == t.", "quantifier": "all inputs, all nodes", "why_tests_cant": "rename / linked editing slice the text using tag.len()", "anchors": ["src/parser/html_parse.rs: StartTag arm", "src/parser/html_document.rs: Node::tag"]}
{"id": "C16", "title": "An element is closed only by its own end tag", "statement": "If end_tag_start of a node is Some(e), then the end tag at e carries the node's tag name (equal up to lower-casing when case_sensitive=false), and all nodes nested inside that were still open are marked closed=false and end at e.", "quantifier": "all inputs, all nodes", "why_tests_cant": "any nesting depth, any end tag order", "anchors": ["src/parser/html_parse.rs: EndTagClose arm", "src/parser/html_document.rs: Node::is_same_tag"]}
{"id": "C17", "title": "Meaning of the closed flag", "statement": "closed is true exactly for nodes that have an end tag, or whose start tag ends the node (self-closing '/>' or void element); a node with closed=false has no end_tag_start.", "quantifier": "all inputs, all nodes", "why_tests_cant": "completion decisions depend on it", "anchors": ["src/parser/html_parse.rs: parse_html_document", "src/parser/html_document.rs: Node::closed"]}
{"id": "C18", "title": "Attributes come from the element's own start tag", "statement": "Every entry (name,{offset,value}) of node.attributes satisfies: text[offset..offset+name.len()]==name, the offset lies inside the node's start tag, and a Some(v) value is either empty (bare '=') or occurs in the text right after the '='.", "quantifier": "all inputs, all nodes, all attributes", "why_tests_cant": "no attribute may leak to a neighbouring element for any input", "anchors": ["src/parser/html_parse.rs: AttributeName, DelimiterAssign, AttributeValue arms"]}
{"id": "C19", "title": "Void elements never have content", "statement": "If a node's tag is in the void element list of the data manager and its start tag is closed with '>', the node is closed, has no children, no end tag, and ends at its start tag end.", "quantifier": "all inputs, all void lists", "why_tests_cant": "all nesting contexts", "anchors": ["src/parser/html_parse.rs: StartTagClose arm", "src/language_facts/data_manager.rs: is_void_element"]}
{"id": "C20", "title": "Parsing inverts printing", "statement": "For every abstract document, printing it as HTML and parsing the result yields a tree of exactly the same shape, with the same tags, attributes, values and offsets, all nodes closed. A document is any forest of elements, void elements, self-closed elements, texts without '<', comments and doctypes; start tags may have any white space between and behind the attributes, attributes may have no value, a value in double or single quotes or one without quotes; end tags may have white space; script and style without a type have raw content, a script with a type has HTML content. Printing a document that is valid UTF-8 never makes the parser panic, whatever characters the texts, comments and values contain.", "quantifier": "all abstract documents of any depth and width", "why_tests_cant": "infinite family of documents", "anchors": ["src/parser/html_parse.rs: parse_html_document", "src/parser/html_scanner.rs: scan"]}
{"id": "C21", "title": "find_node_at returns the innermost node", "statement": "For every parsed document and offset, find_node_at returns None iff no root's [start,end) contains the offset; otherwise it returns a node n with start <= offset < end such that no child of n contains the offset.", "quantifier": "all documents, all offsets", "why_tests_cant": "every tree and offset", "anchors": ["src/parser/html_document.rs: HTMLDocument::find_node_at, Node::find_node_at"]}
{"id": "C22", "title": "find_node_at reports the ancestor chain", "statement": "The parent_list filled by find_node_at is exactly the chain of ancestors from a root to the parent of the returned node (empty for a root): consecutive entries are parent/child and the result is a child of the last one.", "quantifier": "all documents, all offsets", "why_tests_cant": "every depth", "anchors": ["src/parser/html_document.rs: HTMLDocument::find_node_at"]}
{"id": "C23", "title": "find_node_before returns the node that precedes the offset", "statement": "For every parsed document and offset, find_node_before returns None iff no root starts before the offset; otherwise the result starts strictly before the offset, and its parent_list is its ancestor chain.", "quantifier": "all documents, all offsets", "why_tests_cant": "every tree and offset", "anchors": ["src/parser/html_document.rs: HTMLDocument::find_node_before, Node::find_node_before"]}
{"id": "C24", "title": "find_root_at returns the first root reaching the offset", "statement": "find_root_at(offset) is the first root with offset <= end, and None iff all roots end before the offset.", "quantifier": "all documents, all offsets", "why_tests_cant": "every list of roots", "anchors": ["src/parser/html_document.rs: HTMLDocument::find_root_at"]}
{"id": "C25", "title": "find_token_type_in_node classifies offsets by the node's layout", "statement": "For a node of a parsed document with a tag and a closed start tag, the result is Unknown outside [start,end); StartTagOpen at start; StartTag on the name; Content between start tag and end tag; EndTagOpen/EndTag/EndTagClose on the end tag. (It panics for nodes without a tag or without start_tag_end.)", "quantifier": "all documents, nodes, offsets", "why_tests_cant": "boundary arithmetic at each offset", "anchors": ["src/parser/html_document.rs: Node::find_token_type_in_node"]}
{"id": "C26", "title": "Linked editing ranges are the two tag names", "statement": "find_linked_editing_ranges returns Some exactly when the cursor is on a tag name of an element with an end tag, the names taken to be right behind < and </; the two ranges do not overlap, one of them contains the cursor, and their texts are the names in the start tag and the end tag, which are the same name (up to case when case-insensitive). Where this fails is shown by witnesses: blanks in front of the names, and names whose lower case is the same but whose lengths differ (the Kelvin sign and k).", "quantifier": "all texts, all positions; for the texts of the ranges: no blanks in front of the names, and ASCII names (not texts) if case is ignored", "why_tests_cant": "all documents", "anchors": ["src/services/html_linked_editing.rs: find_linked_editing_ranges"]}
{"id": "C27", "title": "Matching tag position is an involution", "statement": "If find_matching_tag_position maps a position on one tag name to q, then q is the corresponding position on the other tag name of the same element, and mapping q back gives the original position, if the end tag is complete.", "quantifier": "all texts, all positions; for the way back: texts in ASCII, or any texts without blanks in front of the names, whose names are ASCII if case is ignored", "why_tests_cant": "all documents", "anchors": ["src/services/html_matching_tag_position.rs: find_matching_tag_position"]}
{"id": "C28", "title": "Rename edits exactly the tag names", "statement": "do_rename returns None unless the cursor is on a tag name of a node with a tag; otherwise its edits are one (no end tag) or two disjoint in-bounds ranges, in document order, each replacing precisely a tag-name occurrence with the new name. Names whose lower case is the same but whose lengths differ are the exception (witness).", "quantifier": "all texts, positions, new names; for the replaced texts: no blanks in front of the names, and ASCII names (not texts) if case is ignored", "why_tests_cant": "all documents", "anchors": ["src/services/html_rename.rs: do_rename, is_within_tag_range"]}
{"id": "C29", "title": "Rename preserves the structure of the document", "statement": "Applying the rename edits to a document and parsing again gives the same tree with only the renamed element's tag changed (offsets shifted). The element is not renamed from or to script or style, nor between void and non-void names. Renaming back to the old name, with the cursor anywhere on the new name in the start tag, offers edits that restore the text exactly.", "quantifier": "all documents produced by printing an abstract document as in C20, all elements, all legal new names", "why_tests_cant": "infinitely many documents", "anchors": ["src/services/html_rename.rs: do_rename", "src/parser/html_parse.rs: parse_html_document"]}
{"id": "C30", "title": "Highlights are the tag names of the element under the cursor", "statement": "find_document_highlights returns [] or one or two ranges; each is the source range of the StartTag / EndTag name token of the node at the cursor (even with whitespace after '<' or '</'), and one of them contains the cursor.", "quantifier": "all documents, all positions", "why_tests_cant": "all documents", "anchors": ["src/services/html_highlight.rs: find_document_highlights, get_tag_name_range, covers"]}
{"id": "C31", "title": "Symbols mirror the element tree", "statement": "find_document_symbols2 has exactly the shape of the document tree (one symbol per node, children in order, range = node range); find_document_symbols is its pre-order flattening, with container_name the parent's symbol name (None for roots).", "quantifier": "all documents", "why_tests_cant": "all trees", "anchors": ["src/services/html_symbols.rs: find_document_symbols, find_document_symbols2, walk, node_to_name"]}
{"id": "C32", "title": "Folding ranges are real, in-document ranges", "statement": "Every folding range satisfies start_line < end_line <= last line of the document, and starts at the line of a start tag, a comment or a region marker. Conversely every comment over several lines that is no region marker, every balanced element that ends at least two lines below its start, and every region whose markers are on different lines has a range that starts on its line.", "quantifier": "all documents", "why_tests_cant": "all documents", "anchors": ["src/services/html_folding.rs: get_folding_ranges"]}
{"id": "C33", "title": "What range_limit does to the number of folding ranges", "statement": "With range_limit = Some(n) each returned range is one of the unlimited result, at most as often. At most n ranges are returned, plus the number of ranges that limit_ranges leaves out of account because they overlap the range before them. So at most n are returned if any two ranges are nested (with different first lines) or disjoint; then a range is dropped only if all ranges inside it are, and exactly min(n, all) remain if no range is inside 30 others. By witness: the limit is exceeded with overlapping ranges, and 31 nested ranges with limit 30 all disappear.", "quantifier": "all documents, all limits", "why_tests_cant": "adversarial nesting/overlap patterns", "anchors": ["src/services/html_folding.rs: limit_ranges, set_nesting_level"]}
{"id": "C34", "title": "When folding panics", "statement": "On UTF-8 texts get_folding_ranges panics exactly if scanning the text panics (C08), or if a range_limit is exceeded and the last range in line order overlaps the last range before it that limit_ranges takes into account (an index out of bounds; a document is given as witness). So it returns for texts without unusual white space that end in an ASCII character, without limit or with ranges that are nested or disjoint.", "quantifier": "all UTF-8 documents, all limits", "why_tests_cant": "index arithmetic over all overlap patterns", "anchors": ["src/services/html_folding.rs: limit_ranges"]}
{"id": "C35", "title": "Selection ranges grow outward", "statement": "get_selection_ranges gives one result per requested position, in order. In a chain every parent range contains its child range strictly, exactly unless the cursor is in an element that consists of its start tag and an attribute that starts before the cursor has an unquoted value which takes the slash of the closing '/>'. Every range contains the cursor, exactly unless the cursor is before the first or behind the last element or on a bracket of an element that consists of its start tag. The chain begins with what is at the cursor: an attribute name, the text between quotes, a value and the whole attribute, the inside of the start tag, the name in the end tag, or the content of the element; and it holds the ranges of the elements around, the contents of those with a child around the cursor, and as the outermost range the one from the first to the last element, unless the innermost element was left open; it holds nothing else but parts of the tags of the innermost element (without elements, the cursor). On UTF-8 texts a request panics exactly if the attributes of the innermost element at one of the positions are looked at and scanning the text of this element panics.", "quantifier": "all documents, all position lists", "why_tests_cant": "all documents", "anchors": ["src/services/html_selection_range.rs: get_selection_ranges, get_applicable_ranges, get_attribute_level_ranges"]}
{"id": "C36", "title": "format returns exactly one edit and does not panic", "statement": "format returns exactly one TextEdit; without a range it covers the whole document. (Fails: it panics for shown elements without a tag name, e.g. `<>` or a CDATA section, for selections that end between `<` and a name, for ranges that start the document or lie on its first line, and for tab_size 0. It returns exactly in the other cases.)", "quantifier": "all documents, ranges, options", "why_tests_cant": "all documents", "anchors": ["src/services/html_formatter.rs: format, compute_indent_level", "src/beautify/beautify_html.rs: html_beautify, beautify_node"]}
{"id": "C37", "title": "What formatting preserves", "statement": "In every document the result of formatting is made of the tags, attributes and words of the parsed elements in their order, with white space between them, and nothing else; for a printed document it has the same characters other than white space as its elements, where void elements get a slash. (So not all characters are preserved: text and the doctype on the top level and the content of unclosed elements are dropped, quotes of values behind white space are lost; proved with witnesses.)", "quantifier": "all documents, options", "why_tests_cant": "all documents", "anchors": ["src/beautify/beautify_html.rs: html_beautify, beautify_node, beautify_text"]}
{"id": "C38", "title": "Repeated formatting of a well-formed document settles", "statement": "Formatting a well-formed document reaches a fixed point after at most three passes, and after one pass when each element with children already takes several lines and the texts around its children are blank or contain a line break. (Plain idempotence - one pass always suffices - is false of the code: `<a>x<b></b>y</a>` needs three passes; proved with a witness.)", "quantifier": "all well-formed documents (any forest of elements with end tags, void and self-closed elements, texts, comments, doctypes, raw elements), all options, all void element lists", "why_tests_cant": "Each further pass depends on the layout written by the pass before; all nestings, text breaks and options matter.", "anchors": ["src/beautify/beautify_html.rs: html_beautify, beautify_node, beautify_text, is_wrap", "src/services/html_formatter.rs: format"]}
{"id": "C39", "title": "Quote completion only after an attribute's '='", "statement": "do_quote_complete offers quotes in every document behind each '=' that directly follows an attribute name of a start tag if no value begins there (white space, '>' or the end of the text follows), and nowhere else if no tag in front of the cursor is cut short; the answer is the configured quote pair around $1, and None when quotes are disabled. Exception: behind a tag that is cut short by another '<' the tokens are read differently, and quotes are also offered within a comment (proved by a witness).", "quantifier": "all documents, positions, settings", "why_tests_cant": "all documents", "anchors": ["src/services/html_completion.rs: do_quote_complete"]}
{"id": "C40", "title": "Tag completion closes the right element", "statement": "do_tag_complete after '>' returns Some(\"$0</t>\") exactly for the non-void, unclosed element t whose start tag ends at the cursor; after the '</' of an end tag it returns the tag of the innermost element that is open there (with '>' unless one follows); otherwise None. That the end tag is inserted behind the start tag of an unclosed element holds in every document, also with tags cut short by another '<'. Exception: behind such a tag an end tag is also inserted within a comment (proved by a witness).", "quantifier": "all documents, positions", "why_tests_cant": "all documents", "anchors": ["src/services/html_completion.rs: do_tag_complete"]}
{"id": "C41", "title": "Completion respects provider settings and existing attributes", "statement": "do_complete only uses providers that are applicable to the language and not disabled in settings: exchanging the others changes nothing. With the cursor in or behind an attribute name, or in the white space behind the element's name, the proposals are exactly the attributes that enabled providers know for the element and that it does not have yet (the one being typed may be proposed), each label once, followed by 'data-' and the data- attributes found in the document; the edit replaces the name that is typed and adds ='' with the configured quotes unless the attribute takes no value or '=' follows. Exceptions proved by witnesses: the data- proposals always add a value, and behind white space that follows '=' names are proposed instead of values.", "quantifier": "all documents, positions, providers, settings", "why_tests_cant": "all documents and providers", "anchors": ["src/services/html_completion.rs: do_complete, collect_attribute_name_suggestions"]}
{"id": "C42", "title": "Hover answers for what is under the cursor", "statement": "do_hover's range contains the cursor offset for tag, attribute name and attribute value hovers; it answers None when the cursor is outside every element; the first provider that knows the tag wins; participants are consulted before providers for attribute values. Hover does not panic at a position of a document whose scan returns from every `<` (in particular for UTF-8 text without non-ASCII white space that ends in an ASCII character).", "quantifier": "all documents, positions, providers", "why_tests_cant": "all documents", "anchors": ["src/services/html_hover.rs: do_hover, get_tag_hover, get_tag_name_range, get_attr_value_hover"]}
{"id": "C43", "title": "Void element list is exactly the applicable void tags", "statement": "get_void_elements(lang) is sorted and contains precisely the names of tags marked void=true by providers applicable to lang (with multiplicity); is_void_element is membership.", "quantifier": "all provider lists, languages, tags", "why_tests_cant": "all providers", "anchors": ["src/language_facts/data_manager.rs: get_void_elements, is_void_element"]}
{"id": "C44", "title": "Path attribute table", "statement": "is_path_attribute(tag, attr) holds exactly for src and href on any tag and for the (tag, attribute) pairs of the built-in table.", "quantifier": "all tag/attribute strings", "why_tests_cant": "infinitely many strings", "anchors": ["src/language_facts/data_manager.rs: is_path_attribute, PATH_TAG_AND_ATTR"]}
{"id": "C45", "title": "Data provider lookups", "statement": "provide_attributes(tag) returns the attributes of the last tag entry with that name followed by all global attributes; provide_values(tag, attr) returns exactly the values and value-set values of matching attributes of that tag, then of matching global attributes; with case_sensitive=false the query is lower-cased first.", "quantifier": "all custom data, queries", "why_tests_cant": "all data sets", "anchors": ["src/language_facts/data_provider.rs: HTMLDataProvider::new, provide_attributes, provide_values"]}
{"id": "C46", "title": "Documentation generation", "statement": "generate_documentation returns None iff nothing is to be shown (description absent/empty or disabled, and references absent/empty or disabled), otherwise the description text followed by the formatted references, separated by a blank line.", "quantifier": "all items and settings", "why_tests_cant": "all combinations", "anchors": ["src/language_facts/data_provider.rs: generate_documentation"]}
{"id": "C47", "title": "Document links point at path attribute values", "statement": "Every link returned by find_document_links has the range of an attribute value token (without its surrounding quotes) of a path attribute; links appear in document order. Targets: '#id' becomes the position of that id in the document, or the document itself; a reference with the scheme http, https or file (any letter case, behind blanks) is its own target, without query and fragment if it is a file; a reference with another scheme or to a script gives no link; '//host' takes http or https like the document; any other reference is resolved against the base of the document or the document. Exception: of a file with two question marks only the part behind the second is left out.", "quantifier": "all documents, contexts", "why_tests_cant": "The kind of a reference is decided by regular expressions and prefixes over arbitrary attribute values, in any state of the scan.", "anchors": ["src/services/html_links.rs: find_document_links, create_link, normalize_ref"]}
{"id": "C48", "title": "Relative references are resolved to normalised paths", "statement": "DefaultDocumentContext::resolve_reference of a relative reference never leaves '.' or '..' segments in the result and keeps the scheme of the base; it keeps the authority and reaches the directory that the segments name, as long as '..' does not go up beyond the top. It panics exactly when the reference can be parsed and the base cannot, or when neither has a scheme. (The authority is changed otherwise: '../x.js' in 'http://host/index.html' becomes 'http://hostx.js'; query and fragment of the reference are lost; proved with witnesses.)", "quantifier": "all references and base URIs", "why_tests_cant": "all strings", "anchors": ["src/html_language_types.rs: DefaultDocumentContext::resolve_reference"]}
{"id": "C49", "title": "When the services panic", "statement": "Completion at a position of a UTF-8 document that is parsed panics exactly if the cursor is in (or just behind) an attribute value that begins with a character that is not ASCII, or that begins with a quote and has such a character in the word around the cursor. A UTF-8 document without unusual white space that ends in an ASCII character is parsed, and for every position of it quote and tag completion, hover, highlights and folding (without limit) return; so do completion outside such values and selection ranges if elements end in ASCII characters. For ASCII documents all of them return. (Linked editing, matching tag, rename and symbols have no operation that can panic.) Exception, by witness: a position behind the last line makes completion panic if the text ends with a letter in content.", "quantifier": "all UTF-8 documents, all positions of them, all providers, participants and settings", "why_tests_cant": "all documents and positions", "anchors": ["src/services/html_completion.rs: do_complete, do_quote_complete, do_tag_complete", "src/services/html_hover.rs: do_hover", "src/services/html_highlight.rs", "src/services/html_selection_range.rs", "src/services/html_folding.rs"]}
{"id": "C50", "title": "Positions and offsets agree", "statement": "For an in-range offset on a character boundary, offset_at(position_at(o)) = o, position_at is monotone and injective on boundaries (contract of the text document the services rely on).", "quantifier": "all texts, all offsets", "why_tests_cant": "all texts", "anchors": ["src/services/html_linked_editing.rs: document.position_at / offset_at (lsp-textdocument)"]}
{"id": "C51", "title": "End tags close the elements they name", "statement": "Every complete end tag of the text either is the end tag of some element of the parsed document (that element's end_tag_start is its offset), or it is stray: no element in whose content it lies has its name. So no end tag that names an open element is ever ignored.", "quantifier": "all inputs, all end tags", "why_tests_cant": "any nesting of unclosed elements between start and end tag", "anchors": ["src/parser/html_parse.rs: EndTagClose arm"]}
{"id": "C52", "title": "Hover contents use the format the client accepts for hovers", "statement": "If client capabilities are given, do_hover uses Markdown contents exactly when the client lists Markdown among its hover content formats. (Fails: the documentation format of completion items is read instead; what holds is that all documentation of tags, attributes and values uses the one format chosen at construction.)", "quantifier": "all client capabilities, documents and positions", "why_tests_cant": "all combinations of capabilities and every answer of every provider", "anchors": ["src/utils/markdown.rs: does_support_markdown", "src/services/html_hover.rs: HTMLHover::new, convert_contents"]}
{"id": "C53", "title": "Every reference gives a link", "statement": "find_document_links returns a link for every value of a path attribute that refers to something (contains a word character and is not a script or of an unknown scheme), except the reference of a base element. (Fails: after a base tag without a reference, the reference of the next element is taken for the base and its link is missing. Holds for documents without a base tag.)", "quantifier": "all documents, contexts", "why_tests_cant": "all combinations of elements and attributes in front of a reference", "anchors": ["src/services/html_links.rs: find_document_links, in_base_tag"]}
{"id": "C54", "title": "When finding links panics", "statement": "For every well-formed UTF-8 document, and a URI parser that accepts the three texts the code unwraps (a file URI without its query, a file URI without its fragment, the URI of a position), find_document_links panics exactly if the document cannot be scanned, or the value of an id attribute or of a path attribute is a lone quote, or the document context panics - on the value that becomes the base, or on a relative reference resolved against the base. With the default context, a valid document URI with a scheme and no base element, only lone quotes (and the scanner) make it panic; an empty base or one that is not a URI does so in front of a relative reference.", "quantifier": "all UTF-8 documents, all document contexts, all URI parsers that accept the three unwrapped texts", "why_tests_cant": "all unfinished documents", "anchors": ["src/services/html_links.rs: normalize_ref, validate_and_clean_uri", "src/html_language_types.rs: DefaultDocumentContext::resolve_reference"]}
{"id": "C55", "title": "What formatting a range does", "statement": "Formatting a range gives one edit. The selection is extended over the blanks on its lines: in front, if nothing else is in front of them on the line (otherwise over all but one of them), and behind, if nothing else is behind them. The new text is the old one if the selection starts inside a tag, and otherwise exactly what formatting the selected text as a document of its own gives: it is never indented like its line (the indentation is read one byte too early). The edit replaces the extended selection, except that behind a line break it starts a line too late (proved with a witness). It fails exactly if the extended selection starts the document or ends before it starts, or, not inside a tag, is on the first line, the tab size is 0 or formatting the selected text fails.", "quantifier": "all UTF-8 documents, all ranges, all options", "why_tests_cant": "all selections of all documents", "anchors": ["src/services/html_formatter.rs: format, compute_indent_level, is_whitespace, is_eol"]}
{"id": "C57", "title": "Completion edits surround the cursor", "statement": "The edit of every proposal of do_complete that does not come from a participant replaces a range that contains the cursor (it starts at or before the cursor and ends at or behind it). The range may reach over several lines, which the protocol forbids (proved by a witness).", "quantifier": "all documents (also broken or not parsed from the text), positions, providers, settings", "why_tests_cant": "all documents and positions", "anchors": ["src/services/html_completion.rs: get_replace_range, scan_next_for_end_pos, collect_*"]}
{"id": "C58", "title": "Proposals for start tags", "statement": "With the cursor in or behind the name of a start tag, do_complete proposes exactly the tags that enabled providers know, in their order, and each proposal replaces the whole name. With the cursor directly behind '<' it proposes, on the first line, '!DOCTYPE', then all known tags, then the end tag of the innermost enclosing element that is still unclosed (if there is one); each replaces the name that follows.", "quantifier": "all documents, positions, providers, settings", "why_tests_cant": "all documents, nestings and providers", "anchors": ["src/services/html_completion.rs: do_complete, collect_tag_suggestions, collect_open_tag_suggestions, suggest_doctype"]}
{"id": "C60", "title": "Proposals for end tags", "statement": "With the cursor in '</', in white space behind it or in the name behind it, do_complete proposes exactly one item: the end tag of the innermost unclosed element among the element in front of the cursor and its ancestors; without one, all known end tags are proposed. The edit replaces what is behind '<' up to the end of the name (in white space: up to the cursor), adds '>' unless one follows, and aligns an end tag that is first on its line with its start tag. Behind '</' (no tag cut short before it) the element is the innermost named one open there. Surprises proved by witnesses: within the end tag of an element the end tag of its parent is proposed instead; between '<' and '/' the text is inserted without replacing the rest; when the indentation is corrected the part of the name behind the cursor is left.", "quantifier": "all documents, positions, providers, settings", "why_tests_cant": "all documents and nestings", "anchors": ["src/services/html_completion.rs: do_complete, collect_close_tag_suggestions, get_line_indent, is_followed_by"]}
{"id": "C59", "title": "Proposals for attribute values", "statement": "With the cursor in an attribute's value, or directly behind its '=', do_complete returns the proposals of the participants, then exactly the values that enabled providers know for that attribute of that element, in their order. In a quoted value each replaces the white-space separated word around the cursor; in an unquoted value, and behind '=', each replaces the whole value and adds double quotes. Participants are told element, attribute (lower-cased unless case matters), the text in front of the cursor and the range of the value. Exceptions proved by witnesses or visible in the statement: behind a closing quote that quote is replaced too; at the end of a quoted value participants are told an empty text; a quoted value with a non-ASCII character makes the call panic.", "quantifier": "all documents, positions, providers, participants, settings", "why_tests_cant": "all values, cursor positions and providers", "anchors": ["src/services/html_completion.rs: do_complete, collect_attribute_value_suggestions, get_word_start, get_word_end"]}
{"id": "C61", "title": "Proposals in content", "statement": "With the cursor in text content behind the beginning of an element, do_complete returns the proposals of the participants, and exactly if the cursor is behind '&' followed only by letters and digits, all character references that end with ';', each replacing the text from '&' to the cursor. In front of the first element nothing is proposed at all.", "quantifier": "all documents, positions, participants", "why_tests_cant": "all texts and positions", "anchors": ["src/services/html_completion.rs: collect_inside_content, collect_character_entity_proposals"]}
{"id": "C62", "title": "Proposal of the end tag behind a start tag", "statement": "With the cursor directly behind the '>' of a start tag, do_complete proposes exactly one item, which inserts that element's end tag behind the cursor; nothing is proposed for void elements, nameless elements, or if auto completion is hidden in the settings. The item is proposed even if the element already has an end tag (witness).", "quantifier": "all documents, positions, settings", "why_tests_cant": "all documents", "anchors": ["src/services/html_completion.rs: collect_auto_close_tag_suggestion"]}
{"id": "C56", "title": "Layout of a formatted document", "statement": "When a whole document is formatted, every element below another element begins a line and is indented to its depth; its start tag is on one line exactly if that line is not longer than the wrap length, and otherwise every attribute is on a line of its own; an element with text only that is on one line in the source stays on one line if it fits with one character to spare; a text on several lines keeps its lines, each indented one deeper than the element, with at most the configured number of blank lines between them, and then the end tag begins a line indented as its element; if a final line break is configured there is one. Exceptions, stated and proved as such: roots follow each other without white space, the end tag behind a last child stays on the child's line, and with tabs wrapped attributes are preceded by an empty line instead of one tab more.", "quantifier": "all documents that can be formatted, all format options, both case modes", "why_tests_cant": "The layout depends on nesting depth, the lengths of all attributes and texts, runs of blank lines and eight options at once; the unit tests compare a handful of files under one or two option sets.", "anchors": ["src/beautify/beautify_html.rs: html_beautify, beautify_node, attrs_format, beautify_text, get_indent, get_attr_indent, node_is_wrap, node_attrs_is_wrap, get_left_tag_len", "src/services/html_formatter.rs: format"]}
{"id": "C63", "title": "Answers depend only on the current setup", "statement": "After any sequence of calls to a language service and its data managers (setting participants, creating data managers, replacing their providers, asking questions), every answer depends only on the question, the options the service was made with, the participants set last and the providers each data manager was given last: questions leave no trace, replaced providers and participants are forgotten completely, other data managers are not affected, and all parts work in the case mode of the options.", "quantifier": "all options, all finite sequences of calls, all questions", "why_tests_cant": "A stale or leaked setting shows only after particular histories of calls; tests use a fresh service for every case.", "anchors": ["src/html_language_service.rs: HTMLLanguageService", "src/language_facts/data_manager.rs: HTMLDataManager::new, set_data_providers", "src/services/html_completion.rs: HTMLCompletion::new, set_completion_participants", "src/services/html_hover.rs: HTMLHover::new, set_hover_participants"]}
{"id": "C64", "title": "Which elements each service treats as void", "statement": "Parsing and folding treat as void exactly the elements that the applicable providers of the given data manager mark as void. Formatting always uses the built-in data instead, whatever the data manager is (proved with a witness in which content is lost).", "quantifier": "all sessions, all providers, all documents", "why_tests_cant": "Depends on custom providers and on the history of set_data_providers; the formatter is only tested with built-in elements.", "anchors": ["src/parser/html_parse.rs: parse_html_document", "src/services/html_folding.rs: get_folding_ranges", "src/beautify/beautify_html.rs: html_beautify", "src/language_facts/data_manager.rs: get_void_elements, Default"]}
{"id": "C65", "title": "Formatting a well-formed document keeps its tree", "statement": "Parsing the formatted text of a well-formed document gives the same tree as parsing the document: the same elements in the same nesting, with the same names, attributes, attribute values and presence of end tags, and the same words in the texts between them. (False for documents with unclosed elements, whose content is lost; proved with a witness.)", "quantifier": "all well-formed documents, all options, all void element lists", "why_tests_cant": "The formatter prints from the tree and re-parsing must invert it for every nesting, attribute form, text and option.", "anchors": ["src/beautify/beautify_html.rs: html_beautify, beautify_node", "src/parser/html_parse.rs: parse"]}
{"id": "C66", "title": "A scanner started at an offset sees only the text from there", "statement": "A scanner created at an offset of a text returns the tokens, token errors and scanner states that a scanner created at the start of the remaining text returns, with all offsets moved by the length of the text in front. It panics exactly if the other one panics. This covers the scanners handed out by `create_scanner`.", "quantifier": "all texts in front, all remaining texts, all start offsets and scanner states, both case settings and both pseudo-close settings", "why_tests_cant": "The scanner looks back at the text and keeps names of earlier tags; independence of what lies in front must hold for every pair of texts.", "anchors": ["src/html_language_service.rs: create_scanner", "src/parser/html_scanner.rs: Scanner::new, Scanner::scan"]}
{"id": "C67", "title": "Text behind a closing bracket does not change the tokens in front of it", "statement": "If a tag, a comment or a doctype ends with `>`, then any text put behind that `>` leaves all tokens up to it as they are. Scanning a text that ends with such a bracket, with further text behind it, gives the tokens of the first text followed by the tokens of the further text, scanned from the scanner state reached and moved. (A `>` inside text is not enough; shown with a witness.)", "quantifier": "all texts in UTF-8 that end with such a bracket, all further texts, all start offsets and states, both case settings and both pseudo-close settings", "why_tests_cant": "The scanner searches ahead for brackets, comment ends and script ends, so what follows could change any earlier token; every continuation has to be considered.", "anchors": ["src/parser/html_scanner.rs: Scanner::scan, internal_scan, MultiLineStream"]}
{"id": "C68", "title": "Closed parts of a document are parsed independently of each other", "statement": "If a text ends with the `>` of a tag, comment or doctype outside script and style content and all its elements are closed, then the tree of this text with further text behind it consists of its own roots, unchanged, followed by the roots of the further text, with all offsets moved. So an edit behind such a text leaves the nodes in front alone, and an edit in front only moves the nodes behind. (Not so if an element is left open; shown with a witness.)", "quantifier": "all such texts, all further texts, all void element lists, both case settings", "why_tests_cant": "Every continuation of every closed document has to be considered; parsers usually keep some state that leaks.", "anchors": ["src/parser/html_parse.rs: HTMLParser::parse", "src/parser/html_scanner.rs: Scanner::scan"]}
{"id": "C69", "title": "The built-in data knows exactly the void elements of HTML", "statement": "A data manager with the built-in data reports area, base, br, col, embed, hr, img, input, link, meta, param, source, track and wbr as void elements, for every language, and custom providers can only add to them. In trees parsed with it these elements end with their start tag, have no children and no end tag; any other element that ends with its start tag was written with `/>`.", "quantifier": "all documents, languages, custom providers, case settings", "why_tests_cant": "The effect on the tree has to hold for every document; the table has over a hundred entries of which any could carry the flag.", "anchors": ["src/language_facts/web_custom_data.rs: HTML_DATA", "src/language_facts/data_manager.rs: get_void_elements, set_data_providers", "src/parser/html_parse.rs: parse"]}
{"id": "C70", "title": "Everything in the built-in tag data can be reached", "statement": "All tags of the built-in data have different lower-case names, lower-case attribute names, and value sets that exist (except the marker `v`). Every tag is found under its name, and in any case without case sensitivity; its values are those of the value sets. Hover on a tag name shows the documentation of that tag and nothing for other tags; completion of a tag name proposes each tag once. (Documentation of attributes that are global too is not shown, and one value is proposed twice; proved with witnesses.)", "quantifier": "all tags, attributes and value sets of the data; all documents, positions, spellings and case settings; all description texts", "why_tests_cant": "Over a hundred tags with hundreds of attributes and values, and each has to work in every document and spelling.", "anchors": ["src/language_facts/web_custom_data.rs: HTML_DATA", "src/language_facts/data_provider.rs: HTMLDataProvider", "src/services/html_hover.rs: get_tag_hover, get_attr_hover", "src/services/html_completion.rs: collect_open_tag_suggestions"]}
{"id": "C71", "title": "Every character reference in the table is shown and proposed", "statement": "The names of the table are different and made of letters and digits with an optional semicolon; a name without semicolon also exists with it, for the same text. Hover on a reference, with or without semicolon, shows its text and its Unicode number with at least four digits, whatever the order of the table; completion behind `&` proposes each name with semicolon once. (For references to two characters the number is wrong and some references of HTML are missing; proved with witnesses.)", "quantifier": "all entries of the table, all orders of the table, all documents and positions", "why_tests_cant": "The table is a hash map with over two thousand entries in an order that differs between runs.", "anchors": ["src/parser/html_entities.rs: ENTITIES", "src/services/html_hover.rs: get_entity_hover, get_entity_range, filter_entity", "src/services/html_completion.rs: collect_character_entity_proposals"]}
{"id": "C72", "title": "An accepted end tag closes the element it was proposed for", "statement": "When the cursor is directly behind the `>` of the start tag of a non-void element that is not closed, its end tag is proposed, and inserting it there gives a document in which that element is closed: it begins where it began, has the same name and attributes, no children, an end tag at the cursor, and ends behind the inserted tag. Asking again at the same place proposes nothing. Parsing the new text always succeeds unless the element is `script` or `style` (for `script` there is a witness where it panics). (`script` and `style` in upper-case letters are excepted; proved with a witness.)", "quantifier": "all UTF-8 documents whose parsing succeeds (for `script` and `style`: also after the edit), and all cursor positions behind the `>` of a start tag; everything that may follow the cursor; all data providers, both case settings", "why_tests_cant": "It relates the parses of two different documents: everything in front of the cursor must be read in the same way, and everything behind it, which is arbitrary and unbalanced while typing, must not take the end tag away.", "anchors": ["src/services/html_completion.rs: do_tag_complete", "src/parser/html_parse.rs: HTMLParser::parse", "src/parser/html_scanner.rs: Scanner"]}
{"id": "C73", "title": "Which elements have raw content", "statement": "Behind the `>` of a start tag stands a script token exactly if the name of the tag is `script` and the last value given to an attribute `type` is missing or empty, and a style token exactly if the name is `style`; the token is as long as C10 says and left out if empty. Script and style tokens stand nowhere else. So (by witness) the content of `<script type=\"text/javascript\">` is read as HTML, and `a<b` in it gives an element `b`.", "quantifier": "all texts, start offsets, settings", "why_tests_cant": "The decision uses state that was remembered while the tag was read; all sequences of attributes, values, white space and stray characters in the tag, and all texts before it, have to be covered", "anchors": ["src/parser/html_scanner.rs: Scanner::internal_scan (WithinTag, BeforeAttributeValue, last_tag, last_attribute_name, last_type_value)"]}
{"id": "C74", "title": "Inserting complete pieces between tags changes nothing else", "statement": "If complete elements, text, comments or doctypes are inserted at a place in content (outside tags, comments, doctypes, scripts and style sheets), the tree of the new text is the old one with exactly the nodes of the inserted piece added, as children of the innermost element that is open there, between the children in front of the place and those behind it; offsets behind the place move by the length of the piece, everything else stays. So replacing text, comments and doctypes between tags by others changes offsets only. (A stray end tag, or a place inside a comment, behaves otherwise; shown with witnesses.)", "quantifier": "all texts in front of and behind the place (also with unclosed elements and stray end tags), all complete pieces of any size, all void element lists, both case settings; for UTF-8 texts it is also proved that the new text is parsed exactly if the old one is", "why_tests_cant": "The stack of open elements in front of the place and the way they are closed behind it are arbitrary; every combination of context and piece has to be compared.", "anchors": ["src/parser/html_parse.rs: HTMLParser::parse_html_document", "src/parser/html_scanner.rs: Scanner::scan", "src/parser/html_document.rs: Node"]}
{"id": "C75", "title": "The services on tag names agree with each other", "statement": "A matching tag position exists exactly if linked editing and rename offer the same two ranges. Rename gives two edits (the ranges of linked editing) exactly if there is a matching tag position; with one edit linked editing and matching tag position give nothing. Linked editing without rename happens only at elements without a name, with empty ranges. Without blanks between bracket and name, and with names in ASCII if case is ignored, the highlights at a position are exactly the ranges of the rename edits there (none if rename offers none); with a blank they differ (witness).", "quantifier": "all documents that parse, all positions, all new names", "why_tests_cant": "four services compute the ranges independently from the tree and the text; agreement must hold at every cursor of every document", "anchors": ["src/services/html_rename.rs: do_rename", "src/services/html_linked_editing.rs: find_linked_editing_ranges", "src/services/html_matching_tag_position.rs: find_matching_tag_position", "src/services/html_highlight.rs: find_document_highlights"]}
{"id": "C76", "title": "Changing the attributes of a start tag changes only them", "statement": "If a start tag that stands in content is replaced by a start tag with the same name and other attributes (both written legally), then the new tree is the old tree in which the element that starts there has exactly the attributes of the new tag, with their values and offsets, and every offset behind the start of the tag is moved by the difference of the lengths; names, nesting, closedness and the attributes of all other elements are unchanged. In particular typing inside the quotes of a value changes this value only. A UTF-8 text is parsed with the new tag exactly if it is parsed with the old one. Limits, with witnesses: a `type` attribute of `script` decides how the content is read, and an unquoted value takes the slash of `/>`.", "quantifier": "all texts before and behind the tag (well-formed or not), all legal pairs of start tags with the same name, case sensitive or not, all lists of void elements", "why_tests_cant": "the claim relates the trees of two documents for every context and every pair of attribute lists; the scanner and the parser carry state past the changed tag", "anchors": ["src/parser/html_parse.rs: HTMLParser::parse", "src/parser/html_scanner.rs: Scanner::internal_scan", "src/parser/html_document.rs: Node"]}
{"id": "C77", "title": "Accepting a proposed attribute value changes only this value", "statement": "In a start tag that is written legally and stands in content, with the cursor directly behind the `=` of an attribute or in its unquoted value, completion proposes every value that an enabled provider knows for this attribute of this element, and applying the edit of the proposal gives the text in which this value is replaced by the proposed one in double quotes, and nothing else is changed. With the cursor between the quotes of a value the edit replaces exactly the word around the cursor. The new text is parsed exactly if the old one is, and its tree is the old tree in which this element has the new value, and what is behind it is moved.", "quantifier": "all well-formed UTF-8 documents with such a tag, whatever stands before and behind it, all documents whose positions round-trip, all cursor positions in the value, all providers, participants and settings", "why_tests_cant": "the claim composes the scanner, the parser, the token search of the completion, position arithmetic, text editing and a second parse, for every context and cursor", "anchors": ["src/services/html_completion.rs: HTMLCompletion::collect_attribute_value_suggestions", "src/parser/html_parse.rs: HTMLParser::parse", "src/parser/html_scanner.rs: Scanner::internal_scan"]}
{"id": "C78", "title": "Folding ranges are the closed elements of the tree and the comments", "statement": "Take a document in which no tag is cut short by the next `<`, every `<` and `</` that starts a tag is followed by a name, a start tag and an end tag whose names the parser takes for the same are written the same way, and no comment is a region marker. Then the folding ranges without limit are exactly those of the closed elements of the parsed tree (with end tag, self-closed or void) and of the comments, in the order in which they end: an element over at least three lines gives the range from the line of its start tag to the line before its end, unless the range before starts in the same line; a comment over at least two lines gives its lines. In particular every other range than that of a comment is a closed element, every closed element of at least three lines can be folded at its first line, and the scanner of the services reads the same tokens as that of the parser. Both restrictions on names are needed: `<A>`..`</a>` is one closed element but not folded, and `<a>`..`</>` is folded although the element is not closed.", "quantifier": "all texts with the named restrictions, all void element lists, both case modes, all position tables", "why_tests_cant": "The service does not use the tree: it has a stack of its own and a scanner in another mode; that both agree must hold for every nesting, for elements left open, stray end tags and void elements.", "anchors": ["src/services/html_folding.rs get_folding_ranges", "src/parser/html_parse.rs parse_html_document", "src/parser/html_scanner.rs Scanner::scan"]}
{"id": "C79", "title": "Document links are the path attributes of the tree", "statement": "Take a document in which no tag is cut short by the next `<`. Every link of find_document_links belongs to an element of the parsed tree: the element has a path attribute, and the range of the link is that of a value of this attribute (without quotes) written in the start tag of the element. It is the value that the tree has, unless the attribute is written again later in the same tag (then there are links for both values, and the tree has the last). Conversely, if no element is a base element, every path attribute in the tree whose value refers to something has a link with the range of this value. Where a tag is cut short this fails: in `<p <video poster=y>` the tree has a path attribute, but there is no link.", "quantifier": "all texts without cut tags, all document contexts and URI parsers, both case modes, all position tables", "why_tests_cant": "The link service does not use the tree but keeps the last tag name and the last attribute name of its own scanner; that these are the element and attribute of the tree must hold for all arrangements of tags and attributes, also repeated, nameless and broken ones.", "anchors": ["src/services/html_links.rs find_document_links", "src/parser/html_parse.rs parse_html_document", "src/language_facts/data_manager.rs is_path_attribute"]}
{"id": "C80", "title": "What is in front of a place between tags does not depend on what is behind it", "statement": "Take a text a that ends in content (between tags, outside of comments and raw text). The tree of a is the tree of any text a ++ x that begins with a, cut off at the end of a: elements that are complete there are the same, elements that are open there have the same start tag and the same earlier children, later ones are left out. So an edit behind such a place changes nothing in front of it: every element that is complete in front of the place is also in the tree of the edited text, with all its fields, and every element that is open at the place is still there with the same name, attributes and start tag. A UTF-8 text that ends in content is always parsed, and whether the longer text is parsed depends only on what is behind the place. In the middle of a start tag all this fails: what is typed next may add attributes to the element.", "quantifier": "all texts that end in content, all two continuations that are parsed, all sets of void elements, both case modes", "why_tests_cant": "What follows is arbitrary: end tags that close several of the open elements at once, broken tags, raw text; none of it may reach back over the place.", "anchors": ["src/parser/html_parse.rs parse_html_document", "src/parser/html_scanner.rs Scanner::scan"]}
{"id": "C81", "title": "Accepting the completion behind `</` closes the innermost open element", "statement": "The cursor is behind a `</` that follows a place in content, no tag in front of it is cut short, and do_tag_complete proposes a text. Then there is an innermost element that is open at the cursor, and the proposed text is its name with `>` (without `>` if one follows the cursor). In the text with it inserted, the tree has this element with the same name, attributes and start tag; it ends with the new end tag, and its children are those it had in front of the cursor. The exception: if the innermost element has its own end tag at this very place, the element around it is proposed, and accepting that takes the end tag away: `<div><p></|p>` becomes `<div><p></div>p>`. The new text is parsed without a panic exactly when the text behind the cursor is parsed on its own; this is so whenever the old text is parsed and a `>` follows the cursor, but not always otherwise, because what was skipped up to the next `>` is scanned for tags now.", "quantifier": "all UTF-8 texts, all positions behind `</`, all void element lists, both case modes, all settings", "why_tests_cant": "The completion looks for the element in the tree of the text with the unfinished `</`, whose tree may have the rest of the document inside of elements it does not belong to; that the parser of the completed text has the same element on top of its stack must hold whatever follows.", "anchors": ["src/services/html_completion.rs do_tag_complete", "src/parser/html_parse.rs parse_html_document"]}
{"id": "C82", "title": "Accepting a proposed element writes its name and nothing else", "statement": "The cursor is behind a `<` that follows a place in content and begins a start tag, or in or behind the (ASCII) name of this tag. Then for every element that an enabled provider knows, do_complete has a proposal with its name; applying the edit of this proposal replaces the name that is there (none, if none is there) by the proposed one and leaves the rest of the text as it is. The tree of the new text has an element with the proposed name that begins at this `<`, and cut off at this `<` it is the tree of the old text cut off there. If neither the old nor the new name is `script` or `style`, the new text is parsed without a panic exactly when the old one is; for a `<` without a name this does not hold, because a name behind white space becomes an attribute.", "quantifier": "all UTF-8 texts, all positions behind such a `<` or in such a name, all providers, settings, void element lists, both case modes", "why_tests_cant": "The edit is computed from the token at the cursor and positions of the document; that its range is exactly the name for every text around it, and that the parser reads the new text as this element, has to hold for all texts and providers.", "anchors": ["src/services/html_completion.rs do_complete", "src/services/html_completion.rs collect_open_tag_suggestions", "src/parser/html_parse.rs parse_html_document"]}
{"id": "C83", "title": "Accepting a proposed attribute writes its name at the place and nothing else", "statement": "The cursor is in a start tag, between white space and the next white space or `>`, where either nothing is written or the (ASCII) name of an attribute, with or without a value. Then for every attribute that an enabled provider knows for this element and that no other attribute of the tag is, do_complete has a proposal with its name. Applying the edit of any proposal writes the proposed name at the place, instead of the name that was there; if no value follows, `=` with the quotes that are set is added (nothing for attributes that take no values). The rest of the text stays. No other attribute of the tag is proposed again (except for `data-`). The text with the new attribute is parsed exactly if the old one is, and its tree is the old tree, in which the element has this attribute and what is behind it has moved.", "quantifier": "all UTF-8 texts around the start tag, all attributes in the tag, all positions in the name or at the place, all providers, settings, void element lists, both case modes", "why_tests_cant": "The edit depends on the token at the cursor, the attributes the element already has, and on what follows; that it is exactly the name and keeps the document otherwise has to hold for every text, every list of attributes and every provider.", "anchors": ["src/services/html_completion.rs do_complete", "src/services/html_completion.rs collect_attribute_name_suggestions", "src/services/html_completion.rs collect_data_attributes_suggestions", "src/parser/html_parse.rs parse_html_document"]}
{"id": "C84", "title": "Accepting the quotes gives the attribute a value and changes nothing else", "statement": "The cursor is directly behind the `=` of an attribute of a start tag that follows a place in content. If the attribute has no value, do_quote_complete offers the pair of quotes that is set; if it has one, nothing is offered. When the offered pair is written at the cursor with any value in it that does not have this quote, the new text is parsed, and its tree is the one of the old text in which this attribute has the quoted value and everything behind it is moved. Behind the opening quote nothing is offered again.", "quantifier": "all UTF-8 texts around such a tag that are parsed, all legal start tags and UTF-8 values, all settings, both case modes", "why_tests_cant": "The scan starts at an element that is looked up in the tree and stops at the cursor; that it arrives at this attribute for every text in front (even with tags cut short) and that the parser reads the inserted value back without disturbing the rest must hold for all texts.", "anchors": ["src/services/html_completion.rs do_quote_complete", "src/parser/html_parse.rs parse_html_document"]}
{"id": "C85", "title": "What the proposals contain", "statement": "Every proposal of do_complete that does not come from a participant is one of nine kinds: a tag, an end tag, an attribute or a value that an enabled provider knows, a data- attribute, the end tag of an element behind '<', the end tag behind a start tag, the document type, or a character reference that ends with ';'. For each kind label, icon, documentation, filter text, inserted text, its format (plain or with places for the cursor) and the request for another completion are as described: the documentation of an entry is its description, a blank line and its references, in Markdown exactly if the client supports it, and there is none if both are missing; another completion is requested exactly for an attribute that is inserted with an open value and has a value set (or is style). Exceptions: documentation of start tags is Markdown even for clients without it (proved by a witness); the text of a character reference lacks its closing quote. What counts as void in completion is what the providers for the document's language mark as void.", "quantifier": "all documents, positions, trees, providers, settings, participants and entity tables; every item of the answer", "why_tests_cant": "Items come from provider data the library does not control, and from nine code paths selected by the document; a test sees a few of them.", "anchors": ["src/services/html_completion.rs: do_complete, collect_open_tag_suggestions, collect_close_tag_suggestions, collect_attribute_name_suggestions, collect_attribute_value_suggestions, collect_character_entity_proposals", "src/language_facts/data_provider.rs: generate_documentation"]}
{"id": "C86", "title": "Renaming an element changes only its name, in every document", "statement": "If the name of an element is replaced in its start tag and in its end tag by a name that no start tag and no end tag between the two has, the tree that is parsed from the new text is the old tree in which this element has the new name and offsets move by the differences of the lengths; nothing else changes. The same holds for elements that are never closed (no tag behind has the new name), and for void or self-closed elements (then with any new name). With the cursor on the name in either tag do_rename offers exactly the edits that do this, the text they give is always parsed (whatever characters the document contains), and renaming back restores the text. Without the condition on the names it fails: renaming the a of <a><b></a> to b leaves the renamed element unclosed.", "quantifier": "all texts around and between the tags, also malformed ones and ones with unclosed or stray tags; all legal start tags, new names other than script and style, never between void and non-void; both case settings, all cursor positions on the names", "why_tests_cant": "C29 covers only documents that are printed from an abstract document; the surroundings here are arbitrary text, in which end tags may close elements implicitly", "anchors": ["src/services/html_rename.rs: do_rename", "src/parser/html_parse.rs: parse_html_document", "src/parser/html_document.rs: Node::is_same_tag"]}
{"id": "C87", "title": "The case of letters does not change the structure", "statement": "With names that ignore the case, two texts that differ only in the case of ASCII letters have the same tokens (types, ranges, errors, states) and document trees of the same shape: the same elements with the same ranges, tags, nesting and closed flags, and names that are equal up to case. Two conditions are needed: the tags <script, </script and </style are spelled in lower case at the same places in both texts, and no name of a start tag is in the list of void elements in one spelling only. Without them it fails: </STYLE> does not end a style element, <BR> is not void.", "quantifier": "all pairs of texts that differ in letter case only, valid or not; all void lists; all start offsets and scanner states; with and without pseudo close tokens; all Unicode tables whose lower-casing ignores the case of ASCII letters", "why_tests_cant": "it compares the behaviour on all spellings of all texts", "anchors": ["src/parser/html_scanner.rs: Scanner::scan", "src/parser/html_parse.rs: parse_html_document", "src/parser/html_document.rs: Node::is_same_tag"]}
{"id": "C88", "title": "Hover shows what the tree has under the cursor", "statement": "If a document parses, then with the cursor on the name in the start tag of any element of the tree hover answers what the data providers know about this element; on the name of any of its attributes, what they know about this attribute for this element; on the value of an attribute (and not on a character reference), what the participants or providers know about this value, with the range of the value as written, quotes included. Where the value is written is determined by the tree. Anywhere in a start tag or an end tag of a UTF-8 document hovering does not panic; elsewhere it panics only if a tag between the beginning of the element around the cursor and the cursor is cut short. Nothing is assumed about the rest of the document, which may be malformed.", "quantifier": "all texts that parse, all elements and attributes of their trees, all cursor positions on names and values, all providers, participants, settings; ASCII or not", "why_tests_cant": "hover scans the tag again from its start while the parser scans the whole document; that the two always agree is a statement about all documents", "anchors": ["src/services/html_hover.rs: do_hover, get_tag_name_range, scan_attr_and_attr_value", "src/parser/html_parse.rs: parse_html_document"]}
{"id": "C89", "title": "Completion and hover show the same documentation", "statement": "The documentation of a proposed element, attribute or attribute value is what hover shows on an element, attribute or value of this name in a document: after accepting a proposed element, hovering over any character of its name shows the documentation of the proposal. Conditions: hover is not restricted by its settings, attributes and values have a description, and no two applicable providers document the same name differently. Without the conditions it fails: an attribute or value that has references only is documented in its proposal and not on hover; of two providers that know an element, hover shows the first one's documentation while both are proposed.", "quantifier": "all providers, proposals, documents that parse, elements, attributes and values in them, all cursor positions on these; all settings", "why_tests_cant": "it relates two services over all provider data and all documents", "anchors": ["src/services/html_completion.rs: collect_open_tag_suggestions, collect_attribute_name_suggestions, collect_attribute_value_suggestions", "src/services/html_hover.rs: do_hover", "src/language_facts/data_provider.rs: generate_documentation"]}
{"id": "C90", "title": "Links to an id lead to the element with this id", "statement": "In a document without base element, a path attribute of an element of the tree that refers to a place in the document (href=\"#x\") is a link. Its target is the line and column of the id value x of the element that has it; if several start tags write the id, that of the last one; the document itself exactly if no start tag writes it, and then no element has it. An id that is written twice in a tag is found although the tree has only the second one.", "quantifier": "all texts that parse and are fully scanned, all elements, attributes and ids; both case settings; all URI libraries", "why_tests_cant": "links are found by a scan, the ids and attributes are in the tree; that both agree is a statement about all documents", "anchors": ["src/services/html_links.rs: find_document_links", "src/parser/html_parse.rs: parse_html_document"]}
{"id": "C91", "title": "Services do not depend on the case of letters", "statement": "With names that ignore the case, two documents that differ in the case of ASCII letters only (and satisfy the conditions of C87) get the same linked editing ranges, matching tag positions, rename edits, highlights and selection ranges at every position, and symbols with the same ranges and nesting. For folding it fails: <P> closed by </p> is one element of the tree, yet has no folding range.", "quantifier": "all pairs of documents that differ in letter case only, valid or not; all positions, new names, void lists", "why_tests_cant": "it compares the answers on all spellings of all texts", "anchors": ["src/services/html_linked_editing.rs: find_linked_editing_ranges", "src/services/html_matching_tag_position.rs: find_matching_tag_position", "src/services/html_rename.rs: do_rename", "src/services/html_highlight.rs: find_document_highlights", "src/services/html_selection_range.rs: get_selection_ranges", "src/services/html_symbols.rs: find_document_symbols2", "src/services/html_folding.rs: get_folding_ranges"]}
{"id": "C92", "title": "`\\r\\n` and `\\n` mean the same", "statement": "If every `\\n` of a document is written as `\\r\\n`, scanner and parser give the same tokens and the same tree at the same places of the text (each offset grows by one for every line ending in front of it), and a panic stays a panic; only attribute values show the other line endings. In documents that give the same positions to the same places, as the reference documents do, highlights, folding ranges and the ranges of symbols are the same; linked editing, matching tag and rename are the same where no line ends between a bracket and the name behind it; selection ranges are the same, or the request panics for both, unless a cursor is in an end tag that lacks its > and ends with the end of a line.", "quantifier": "all UTF-8 texts, scanner states and start offsets, case settings, void elements, positions and limits", "why_tests_cant": "Line endings can stand at any place of any construct: in tags, names, values, comments, raw text; each has its own loop, and offsets shift by a different amount at each place.", "anchors": ["src/parser/html_scanner.rs: Scanner::scan", "src/parser/html_parse.rs: parse", "src/services/html_folding.rs: get_folding_ranges", "src/services/html_highlight.rs: find_document_highlights", "src/services/html_linked_editing.rs: find_linked_editing_ranges", "src/services/html_selection_range.rs: get_selection_ranges"]}
{"id": "C93", "title": "Every operation comes to an end", "statement": "Whatever calls were made before, every question to the service (parsing, completion, quote and tag completion, hover, formatting, highlights, links, symbols, folding, selection ranges, rename, matching tag, linked editing), with any text, tree, position, range and options, comes to an answer or a panic: none of its loops runs more than twice the length of the text and two more rounds. The tokens of a text are at most twice as many as its bytes. For links, the client's function that resolves references has to return.", "quantifier": "all sequences of calls, all questions with arbitrary bytes, trees (also of other texts), positions and options", "why_tests_cant": "An endless loop shows up only for the text, position and stale tree that cause it; tests run on finitely many.", "anchors": ["src/html_language_service.rs HTMLLanguageService", "src/parser/html_scanner.rs Scanner::scan", "src/parser/html_parse.rs HTMLParser::parse", "src/services/*.rs"]}
{"id": "C94", "title": "Answers about an element do not depend on what is behind it", "statement": "If two documents begin with the same text, up to a place that is between tags (not in a tag, a comment or a script), then for a cursor on an element that is complete in front of this place linked editing, matching tag, rename and highlighting give exactly the same in both; and hovering over the name, an attribute name or an attribute value (one that is not a lone quote, and with the cursor not in a character reference) of any start tag in front of the place gives the same, even if the element goes on behind it. When case does not matter, linked editing, matching tag and rename need as many bytes in front of the place, behind the </, as the name in the start tag has. So typing at the end of a document never changes what the editor says about the elements above. (The bytes in front of the place have to have the same positions in both documents, as they have unless the place is between \\r and \\n.)", "quantifier": "all texts in front of the place, all texts behind it (UTF-8 texts for highlighting and for hovering over attributes), all elements in front of it, all cursors, providers, participants, new names, case sensitive or not", "why_tests_cant": "The claim relates the answers for all continuations of a text, of which there are infinitely many.", "anchors": ["src/services/html_linked_editing.rs find_linked_editing_ranges", "src/services/html_matching_tag_position.rs find_matching_tag_position", "src/services/html_rename.rs do_rename", "src/services/html_highlight.rs find_document_highlights", "src/services/html_hover.rs do_hover"]}
{"id": "C95", "title": "Folding ranges and symbols stay when more text is put behind a document", "statement": "If a document ends with the > of a tag, a comment or a doctype, then the folding ranges it has (without a limit) are, unchanged and in the same order, the first folding ranges of every document that goes on behind it; and if it also leaves no element open and does not end in raw text, then its symbols, nested or in a list, are the first symbols of the longer document. With a limit on the number of ranges this is not so, nor for a document that ends in a comment, nor for the symbol of an element that is still open: its range grows.", "quantifier": "all documents that end with such a > (in UTF-8), all texts behind them (well-formed or not) for which the service returns, both case settings, all sets of void elements, all implementations of positions that agree on the offsets of the common part", "why_tests_cant": "the text behind the document is arbitrary, of any length and possibly broken, and the ranges depend on a stack of open tags and the last range reported", "anchors": ["src/services/html_folding.rs: get_folding_ranges", "src/services/html_symbols.rs: find_document_symbols, find_document_symbols2", "src/parser/html_parse.rs: parse_html_document"]}
{"id": "C96", "title": "Text put in front of a document only moves the answers", "statement": "If a complete text (one that ends, outside raw text, with the > of a tag, a comment or a doctype and leaves no element open) is put in front of a document, then linked editing, matching tag, rename and highlighting give at the moved position exactly the moved ranges (as many lines further down, and further to the right on the line where the text in front ends), the symbols are those of the text in front followed by the moved ones, and hovering, where it answered before, gives the same content with the moved range. This holds for every position, in the document or beyond its end, and every document, also broken ones. If the text in front leaves an element open it is not so.", "quantifier": "all complete texts in front, all documents that parse, all positions, new names, providers whose attributes do not depend on the offset, services without hover participants, both case settings, all sets of void elements, all implementations of positions that agree on the moved offsets", "why_tests_cant": "the text in front and the document are arbitrary, and every offset in the tree, in the scans the services start inside the document and in the positions has to move by the same amount", "anchors": ["src/services/html_linked_editing.rs: find_linked_editing_ranges", "src/services/html_matching_tag_position.rs: find_matching_tag_position", "src/services/html_rename.rs: do_rename", "src/services/html_highlight.rs: find_document_highlights", "src/services/html_symbols.rs: find_document_symbols, find_document_symbols2", "src/services/html_hover.rs: do_hover"]}
{"id": "C97", "title": "The folding ranges of complete parts add up", "statement": "If a text ends, outside raw text, with the > of a tag, a comment or a doctype, and every start tag in it has its end tag (or is void or self-closed) and every #region its endregion, then the folding ranges (without a limit) of every document that begins with this text are the ranges of the text followed by the ranges the rest has on its own, moved down by the number of line breaks of the text. This holds for every rest, also a broken one, and even if it begins on the line on which the last range of the front is closed. A region left open in front changes the ranges of the rest.", "quantifier": "all texts in front that are balanced, all documents behind them for which the service returns, both case settings, all lists of void elements, all lawful implementations of positions", "why_tests_cant": "the service carries a stack, the last tag name and the line of the last range from the front into the rest; that none of them has an influence depends on all balanced texts and all continuations", "anchors": ["src/services/html_folding.rs: get_folding_ranges"]}
{"id": "C98", "title": "Text put in front moves selection ranges and widens only the outermost one", "statement": "If a complete text (ending, outside raw text, with the > of a tag, a comment or a doctype, with every element in it closed) is put in front of a document with at least one element, the selection ranges at a moved cursor position are the moved ones. If the text in front has elements too, only the outermost range, the one around all elements, differs: it now begins with the first element in front, and if an inner range was the same as the old outermost one, that inner range stays as a range of its own. If the innermost element around the cursor has no end tag and does not end with its start tag, the chain is just this element, moved, and nothing of it reaches into the text in front. Wherever the service answered, it still answers.", "quantifier": "all complete texts in front, all documents with an element behind them, all positions for which the service returns, both case settings, all lists of void elements, all implementations of positions that move as the text does", "why_tests_cant": "the ranges come from a tree, from a second scan of the element's own text and from a list that drops equal neighbours; that none of them depends on what is in front must hold for all pairs of texts", "anchors": ["src/services/html_selection_range.rs: get_selection_ranges"]}
{"id": "C99", "title": "Text put in front does not change what is inserted while typing", "statement": "If a complete text (ending, outside raw text, with the > of a tag, a comment or a doctype, with every element in it closed) is put in front of a document, then at every cursor position behind the start of the document's first element the closing tag inserted on > or / and the quotes inserted on = are exactly the same as without the text in front, including when nothing is inserted. If an element of the text in front is still open, typing </ can close that element instead.", "quantifier": "all complete texts in front, all documents, all positions behind the start of the first element, all settings and data providers, both case settings, all implementations of positions that move as the text does", "why_tests_cant": "the services look for the node in front of the cursor in the whole tree and scan again from there to the cursor; that the text in front has no influence must hold for all pairs of texts and positions", "anchors": ["src/services/html_completion.rs: do_tag_complete", "src/services/html_completion.rs: do_quote_complete", "src/parser/html_document.rs: find_node_before"]}
{"id": "C100", "title": "Text put in front only moves completion proposals", "statement": "If a complete text (ending, outside raw text, with the > of a tag, a comment or a doctype, with every element in it closed) without data- attributes is put in front of a document that begins with a line break, then at every cursor position behind the first line and behind the start of the first element completion proposes exactly the same items in the same order, with the same labels, kinds, filter texts, documentation and new texts, and each edit is made at the place that its text has moved to. If the document does not begin with a line break, the indentation of its first line is lost and a proposed end tag may be placed differently; data- attributes of the text in front are proposed too.", "quantifier": "all complete texts in front, all UTF-8 documents that begin with a line break, all positions behind the first line and the start of the first element for which completion in the document alone returns, all settings, all data providers whose attributes do not depend on the position in white space, services without completion participants, both case settings, all implementations of positions that move as the text does", "why_tests_cant": "completion looks for the node before the cursor, scans again from it, looks back for spaces, quotes and line starts, and collects names from the whole tree; that none of this notices the text in front must hold for all pairs of texts, positions and kinds of proposals", "anchors": ["src/services/html_completion.rs: do_complete", "src/services/html_completion.rs: collect_tag_suggestions", "src/services/html_completion.rs: collect_attribute_name_suggestions", "src/parser/html_document.rs: find_node_before"]}
{"id": "C101", "title": "The links of complete parts add up", "statement": "If a text ends, outside raw text, with the > of a tag, a comment or a doctype and has no base tag, then the links of a document put behind it are exactly the links of the text alone followed by the links of the document alone, in the same order: the ranges of the document's links are moved as the text is, and all targets are the same, except that a link into the document itself may lead to another place in it, because ids of both parts are found. If no link leads into the document, the two lists simply add up. A base tag in front changes the targets behind it.", "quantifier": "all texts in front without base tag that end with a complete tag, comment or doctype, all documents behind them for which finding links returns, all document contexts and URI parsers that accept what the code takes for granted, both case settings, all implementations of positions that move as the text does", "why_tests_cant": "the search for links carries the last tag, the last attribute name, the base and all ids through the whole document; that none of the text in front leaks into the links behind it, or the other way round, must hold for all pairs of texts", "anchors": ["src/services/html_links.rs: find_document_links", "src/services/html_links.rs: create_link"]}
{"id": "C102", "title": "Formatting does not depend on the line endings", "statement": "If a document is written with \\r\\n instead of \\n, formatting the whole of it gives exactly the same edits, with the same new text and the same range, or panics just as before, for all options, unless an attribute value has a line end in it (a value is copied as it is). So the result does not tell which line ending the document uses. This is not so for formatting a range: with \\r\\n the edit does not reach over blanks at the end of the last line.", "quantifier": "all UTF-8 texts whose elements have no attribute value with a line end, all pairs of documents with these texts that give the same positions to the same places, all formatting options, all void elements, both case settings", "why_tests_cant": "line ends are looked at in many places of the formatter: to decide whether an element is put on lines of its own, to count blank lines, to measure the length of lines; that none of them takes the \\r for content must hold for all trees and all options", "anchors": ["src/services/html_formatter.rs: format", "src/services/html_formatter.rs: is_eol", "src/beautify/beautify_html.rs: html_beautify"]}
{"id": "C103", "title": "Links do not depend on the line endings", "statement": "If a document is written with \\r\\n instead of \\n, finding links gives exactly the same links with the same ranges and targets, or panics just as before. Line ends may be anywhere, also in attribute values, except in the value of an id attribute and in the value that is taken for the base of the document.", "quantifier": "all UTF-8 texts that the scanner reads without panic and that have no line end in an id value or in the value of the base, all pairs of documents with these texts that give the same positions to the same places, all document contexts and URI parsers, both case settings", "why_tests_cant": "values are cut out, stripped of quotes and measured by byte offsets, and targets inside the document contain line and column numbers; that no \\r gets into a target or moves a range must hold for all documents", "anchors": ["src/services/html_links.rs: find_document_links", "src/services/html_links.rs: create_link", "src/services/html_links.rs: get_workspace_url"]}
{"id": "C104", "title": "Hovering does not depend on the line endings", "statement": "If a document is written with \\r\\n instead of \\n, hovering at the same place gives exactly the same answer with the same range, or panics just as before, unless the cursor is in an attribute value that has a line end in it. Custom data may depend on the element but not on the offset, and participants are taken to answer alike for both documents.", "quantifier": "all UTF-8 texts for which parsing returns, all places of the text outside of attribute values with line ends, if the scanner reads the text from the elements around the place on without panic, all pairs of documents with these texts that give the same positions to the same places, all data providers whose attributes do not depend on the offset, all participants, all settings and entity tables, both case settings", "why_tests_cant": "hovering scans tokens from the element on, compares their offsets with the cursor, and walks over letters byte by byte around entities; that no \\r is counted must hold for all texts and all places", "anchors": ["src/services/html_hover.rs: do_hover", "src/services/html_hover.rs: get_entity_range", "src/services/html_hover.rs: scan_attr_and_attr_value"]}
{"id": "C105", "title": "What is inserted while typing does not depend on the line endings", "statement": "If a document is written with \\r\\n instead of \\n, then at the same place the closing tag inserted on > or / and the quotes inserted on = are exactly the same, including when nothing is inserted, and a panic occurs just as before. Places are given by line and column: the byte offset of a place differs between the two documents.", "quantifier": "all UTF-8 texts for which parsing returns, all places of the text, all pairs of documents with these texts that give the same positions to the same places, all settings and data providers, both case settings", "why_tests_cant": "the services look at the bytes next to the cursor, look for the node in front of it and scan again from there, comparing token ends with the cursor and with the byte in front of it; that no \\r is in the way must hold for all texts and all places", "anchors": ["src/services/html_completion.rs: do_tag_complete", "src/services/html_completion.rs: do_quote_complete", "src/parser/html_document.rs: find_node_before"]}
