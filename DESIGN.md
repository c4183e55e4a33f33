# Formal model of ren-wei/html-languageservice: design

The Rust source in `/repo` is read as text and modelled by hand in Lean 4.
Nothing in `/repo` is compiled or run.

## 1. Trusted base

* Lean 4.33.0's kernel.
* Axioms: at most `propext`, `Quot.sound`, `Classical.choice` (reported per
  theorem by the gate). No own axioms, no `sorry`, no `native_decide`/`bv_decide`.
* The hand translation Rust -> Lean, each definition of which cites the file
  and lines it models.
* The behaviour assumed of crates that are not in `/repo` (section 3).

## 2. Modelling conventions

* **Text** is a `List Nat`, every list, so in particular every
  UTF-8 encoded Rust `&str`. Rust's char-boundary test is modelled: an offset is a
  boundary when it is the length or the byte there is not a continuation byte
  (0x80..0xBF). Slicing at a non-boundary is a panic.
* **Panics** are explicit: functions that may panic return `Except Panic α`.
  Integer overflow/underflow, slice errors, `unwrap` of `None`, index out of
  bounds and division by zero are panics (debug-profile arithmetic; in release
  builds the subtraction underflows wrap instead).
* **`&mut self`** methods return the new state.
* **Loops** are fuelled functions; a theorem shows which fuel is sufficient, so
  results do not depend on fuel.
* **Regexes** used by the scanner are modelled as hand-written matchers, one per
  regex literal.
* **Unicode tables** (`\w` on non-ASCII, `char::to_lowercase` on non-ASCII) are
  parameters of the model (`structure Uni`), concrete on ASCII. Theorems hold
  for every instance of those tables.
* **Parse tree**: raw pointers `cur: *mut Node` and the parent stack become a
  zipper. `HashMap<String, NodeAttribute>` becomes an association list with
  replace-on-insert (iteration order of the map is unspecified in Rust and is not
  observed by the theorems).
* **Logging** (`log::error!`) is dropped.
* **Characters**: `str::chars`, `trim`, `\s` of the formatter work on `charsOf`, which groups
  the bytes of a text into UTF-8 characters; the white space characters of Unicode are listed.
* **Integer widths**: `as u32`/`as usize` are the identity (texts below 4 GiB); counters
  are natural numbers.
* **Hash maps** that are read back in an unspecified order are lists in the model. Where
  the order could be observed the theorem says so (membership instead of equality).

## 3. External crates (assumed contracts)

* `multi-line-stream 1.1.1`: byte positions; `eos` = position >= length;
  `peek_char(n)` byte at position+n; `advance_if_char(s)`; `advance_until_char(s)`
  stop at first occurrence or go to end; `advance_if_regexp` looks for a match in
  `&source[pos..]` and advances to its end; all scanner regexes used with it are anchored with `^`, so
  that the match is at the current position, except the one for marks in scripts, which moves behind the first mark; `advance_until_regexp` moves to the start of
  the first match or to the end; `skip_whitespace` skips bytes
  `' ' '\t' '\n' 0x0C '\r'`.
* `lsp-textdocument 0.5.0`: a document is a text with two functions `position_at`
  and `offset_at` (`TextDoc`), and `get_content` for a range is the slice between the two
  offsets. Service theorems are stated on byte offsets, or for an arbitrary `TextDoc` satisfying
  the laws they name; a reference model (lines end with `\n`, `\r\n` or `\r`, columns are UTF-16
  units, positions behind the end are clamped) is shown to satisfy the laws (C50). Not modelled:
  what the crate does for offsets inside a character.
* `lsp-types::Uri`: which texts are accepted is a parameter (`UriLib.valid`); an accepted text is
  split as in RFC 3986, appendix B.
* `std::path` for `file:` bases: Unix separators.
* `regex 1.12`: leftmost-first semantics of the literal patterns.
* Other parts of `lsp-types`: plain data.

## 4. What is modelled

| source | model |
|--------|-------|
| `parser/html_scanner.rs` | `Model/Scanner`, all of it |
| `parser/html_parse.rs` | `Model/Parser`, all of it |
| `parser/html_document.rs` | `Model/Document`, all of it |
| `services/html_linked_editing.rs`, `html_matching_tag_position.rs`, `html_rename.rs`, `html_highlight.rs` | `Model/TagServices`, all of them |
| `services/html_symbols.rs` | `Model/Symbols`, both services |
| `services/html_folding.rs` | `Model/Folding`, all of it |
| `services/html_selection_range.rs` | `Model/SelectionRange`, all of it |
| `services/html_hover.rs` | `Model/Hover`, all of it; participants as arbitrary functions |
| `services/html_links.rs` | `Model/Links`, all of it |
| `services/html_completion.rs` | `Model/Completion`: completion, quote completion, tag completion; participants as arbitrary functions |
| `services/html_formatter.rs`, `beautify/beautify_html.rs` | `Model/Formatter`, all of them |
| `language_facts/data_manager.rs`, `data_provider.rs`, `utils/markup.rs`, `utils/markdown.rs` | `Model/LanguageFacts` |
| `utils/uri.rs`, `DefaultDocumentContext` | `Model/Uri` |
| `html_language_service.rs`, `participant.rs` | `Model/Service`: the service and its data managers as a state, calls as transitions; providers and participants are pure |
| `parser/html_entities.rs` | `Model/Entities`, made from the source by `tools/gen_data.py`; the services take an arbitrary table, C71 is about this one in any order |
| `language_facts/web_custom_data.rs` | `Model/BuiltinTags`, made by `tools/gen_data.py`; the texts of descriptions and references are left open; the services take arbitrary data, C69 and C70 are about this data |

Not modelled: the texts of descriptions and references in `web_custom_data.rs`, the reading of this data from
JSON (serde; `tools/gen_data.py` reads it instead), and the trait `FileSystemProvider`, which nothing calls.

## 5. Plan and state per property

The theorems of a property are the theorems `Html.Props.C<nn>_*`; `MANIFEST.json` lists them.
`Spec/` holds what the statements need apart from the model: tokens, trees, printed documents,
positions, lines, words, references, layout.

| id | model | proof |
|----|-------|-------|
| C01 | scanner | measure `2*(len-pos)+flag` decreases at each non-EOS scan |
| C02 | scanner | one-step lemma `offset' = end`, induction over the run |
| C03 | scanner | case analysis of `internal_scan` |
| C04 | scanner | case analysis |
| C05 | scanner | the internal scan is shown to satisfy the negation of the fallback's condition in every state |
| C06 | scanner | invariant relating scanner state to the last non-whitespace token type |
| C07 | scanner, stream | one-step lemmas on the matched text |
| C08 | scanner | invariants on where the scanner stands and on what the tokens so far say about its hidden fields; each panicking slice is traced to one of the two situations (`Proof/Panics`) |
| C09 | scanner | bisimulation between two scanners in WithinContent |
| C10 | scanner | the loop refines a reading relation (`Spec/RawText`) that determines the end; case of end tags by witness |
| C11 | parser | invariant on (scanner state, zipper, pending attribute) |
| C12 | parser | zipper invariant |
| C13 | parser | ghost list of StartTagOpen offsets equals preorder of the zipper |
| C14 | parser | zipper invariant + token contents |
| C15 | parser | zipper invariant + token contents |
| C16 | parser | zipper invariant |
| C17 | parser | zipper invariant |
| C18 | parser | zipper invariant |
| C19 | parser | zipper invariant, last processed token |
| C20 | scanner, parser | structural induction on the abstract tree, stating how the parser transforms the zipper over the printed text; the same induction shows that the scanner is never in a state in which it can panic |
| C21-C24 | document queries | structural induction on trees; sortedness from C12 |
| C25 | document queries | case analysis; negation witnesses for the panics |
| C26-C28 | services | case analysis over C14, C15, C21 |
| C29 | services | corollary of C20 on printed trees; undo by induction over the abstract document (`Proof/RenameUndo`) |
| C30 | services | C09 + C21 |
| C31 | symbols | structural induction |
| C32-C34 | folding | loop invariant; the limit as a fold over the ranges, its bound and its exact panic condition; witnesses |
| C35 | selection range | attributes are tied to the tokens of their start tag (invariant of the parser), so the fold over the rescanned tokens is computed exactly; equivalences for nesting and for containing the cursor; membership in both directions for the list of ranges; exact panic condition from the token run of the element |
| C36 | formatter | totality by induction over the tree, exact condition; witnesses of the panics |
| C37 | formatter | the output is related to the pieces of the tree by induction; witnesses of lost content |
| C38, C65 | formatter, parser | a document type closed under formatting (`Proof/Reprint`), the formatter as a function on it (`Proof/Reformat`), fixed points (`Proof/Settle`) and tree (`Proof/Reshape`) by induction; witnesses of the limits |
| C39, C40 | completion | the token run in front of the cursor, described without the scanner (`Spec/Completion`) |
| C41, C57-C62 | completion | token loop of completion unfolded to the token at the cursor; proposals computed exactly |
| C42 | hover | scanner loop invariants |
| C43-C46 | data manager/provider | list lemmas |
| C47 | links | scanner loop invariant; the kinds of references (script, scheme, fragment, host, relative) computed on the shape of the value (`Spec/LinkScheme`: `SchemeName`, `Plain`) |
| C48 | URI | list lemmas on segments |
| C49 | all services for a position (`Props/Total.lean`) | totality: every scan of a text without unusual white space returns (C08), slices are in bounds, subtractions do not underflow by an invariant of the token loop |
| C50 | reference text document | list induction |
| C51 | parser | zipper invariant over the close operation |
| C52 | hover | case analysis; refuted by a witness |
| C53, C54 | links | loop invariant, exact panic condition; witnesses |
| C55 | formatter | the extended selection is determined by the text; the result is compared with formatting the selection as a document; witnesses of wrong indentation and start |
| C56 | formatter | relational layout specification (`Spec/Layout`), induction over the tree and over lines |
| C63, C64 | service | invariant relating the state to the calls made, induction over the calls; witness for the formatter |
| C66-C68 | scanner, parser, service | simulations between scans of related texts: one text behind another, one text with different endings (`Proof/Shift`, `Proof/Ahead`); lifted to token lists and to the parser's stack (`Proof/Concat`, `Proof/ParseConcat`) |
| C69-C71 | built-in data | the tables are evaluated in the kernel, all entries; consequences for the services from C42, C43, C45, C58, C61 |
| C72 | accepted end tags | the run of scanner and parser in front of the cursor is transferred to the edited text; the inserted tag is scanned; finished nodes stay in the tree; behind the tag both scanners see the same text in the same state, so the new text panics only if the old one does (`Proof/AcceptPanics`) |
| C74 | insertion | the parser's stacks in both texts are related: elements opened behind the place are moved copies, the innermost one open at the place has the new nodes inserted, those around it are equal (`Proof/Insert`); the inserted piece is parsed as in C20; whether the scanner panics is carried over the changed place (`Proof/EditPanics`) |
| C75 | services on tag names | from C26-C28 and C30, which describe each service by the same elements |
| C76 | attributes of a tag | the stacks of the two parses are related: elements opened behind the tag are moved copies, the element of the tag has the new attributes and elements around it are equal (`Proof/Retag`); the tag itself is read as in C20; whether the scanner panics is carried over the changed place (`Proof/EditPanics`) |
| C77 | accepting a value | every attribute of the tree is traced back to its tokens (`Proof/AcceptValue`: invariant of reading start tags), which gives the token of the value; C59 says what is proposed there, the round trip of positions what the edit does, and C76 that the new text is parsed and what its tree is |
| C78 | folding and the tree | simulation of the parser by the service, token by token (`Proof/FoldTree`): its stack is the list of the open elements, `popTo` finds the element that `matchDepth` finds, what has been folded is the list of finished closed elements and comments by their ends; `scan_plain` gives that both scanners read the same tokens |
| C79 | links and the tree | the start tags read off the tokens (C18) one token at a time (`infoStep`): behind a value token the attribute has this value until it is written again (`KeptAttr`); a tag without a name has no attributes (`Run.has_name`), so the last name is that of the element; C47, C53 and C78 for the links |
| C80 | front of a place | the tree of the open elements, cut at the place, is an invariant of the parser behind the place (`Proof/Cut`): elements opened there do not matter, and elements that are closed there end behind it; at the place the cut tree is that of the stack (`parse_to_content` of C74); whether the scanner panics is carried over the changed place (`Proof/EditPanics`) |
| C81 | accepting behind `</` | C40 gives the innermost open element of the tree; the tree cut at the `</` (C80) is that of the parser's stack, so this element is on top of the stack (`Proof/AcceptSlash`), also in the completed text, where the end tag is read as in C72; behind it the scanner begins anew, so the text is parsed if and only if what is behind it is (C80) |
| C82 | accepting an element | the `<` behind content is a token, and the next one the name (`Proof/AcceptTag`), so C58 gives the edit; in the new text this `<` starts an element (C13), whose name is the text behind it (C15); in front of it C80; the two texts are scanned alike behind the name, because the scanner only asks whether the name is `script` or `style` (`Proof/OtherName`) |
| C83 | accepting an attribute | the attributes of the node are name tokens (induction over the tokens, `Proof/AcceptName`), the white space behind a part of the tag is one token, so C41 gives the proposals and their edits; the new tree by C76 |
| C84 | accepting the quotes | the element found is the one of the tag (`Doc.in_tag`), the tokens of its start tag are not empty (C03), so the loop reads them as the parser does; the new tree by C76 |
| C85 | contents of proposals | one predicate per kind of item, proved for every list a branch of the token loop returns; documentation by cases on description and references |
| C86 | renaming in arbitrary text | two runs of the parser over the old and the new text, related state by state (same stack up to the name and the moved offsets) |
| C87 | letter case | two runs of the scanner and the parser over both texts; all character classes ignore the case, the state differs in the text of the last `type` value only |
| C88 | hover and tree | the tokens that hover scans from the tag on are a prefix of the tokens of the document behind this place (`hoverRun_prefix`), so attribute names and values are found where the parser found them; `Safe` says that the second scan does not panic up to the cursor, which follows as long as no tag is cut short there |
| C89 | documentation | `docOf` and `entryDoc` are the same text (`docOf_eq`); C88 gives the answer of hover, whose search over providers finds an entry that agrees with the proposed one |
| C90 | ids | the values of id attributes in the tokens are those written in start tags of the tree (as for C79); the last one in the text is the last one found |
| C91 | letter case and services | the node at a position has the same offsets in trees of the same skeleton; the scans of highlights and selection ranges are those of C87 on (parts of) the texts |
| C92 | line endings | simulation: the scanner on the text with `\r\n` is always at the image of its place (`ln_scan`), since `\r` belongs to the same classes as `\n`; parser, folding and the attribute search of selection ranges by induction over the loop |
| C93 | termination | every scan that is not EOS lowers the measure of C01 (`Step.mu_lt`), hence each loop of each service ends within its rounds; all functions without loops by composition (`Proof/Terminates.lean`) |
| C94 | what is behind an element | the element is in both trees (C80, `cut_transfer`), its names are read the same up to the `>` (`NameIs.front`), and the positions agree; hover by C88 applied to both documents |
| C95 | ranges and symbols that stay | the tokens of the front are the first tokens (C67), the loop over them does the same in both documents and only appends ranges; the tree of the front is the first part of the tree (C68) |
| C96 | text in front | the tree is that of the front followed by the shifted one (C68), looking up a node commutes with shifting (`findNodeAt_behind`), and so do the scans that services start inside the document (C66, `scan_shift`); positions move by a law that the reference implementation is shown to obey |
| C97 | folding of parts | the tokens are those of the front and the shifted ones of the rest (C66, C67); balanced tokens leave the stack as it was; a simulation (`FoldDown`) of the loop over the rest shows that the last tag name and the last line left by the front have no influence (the last range of the front starts above its last line, C32) |
| C98 | selection ranges behind a text | every list of offset ranges the service collects is an inner part, which moves (`nodeRanges_mv`, `attributeRanges_mv`, `pairRanges_mv`), and the range around all roots; the chain of such a list is given by recursion (`chainR`), which commutes with moving and with adding a last range |
| C99 | typing behind a text | `find_node_before` finds the shifted node (`before_behind`); the loops over tokens take the same steps on the shifted scanner (`endsAt_behind`, `quoteLoop_behind`) and do not depend on spare fuel |
| C100 | proposals behind a text | the context of completion with the text in front is related to the one without (`CompCtx.Moves`); every collector gives the moved items, and the loop over the tokens by induction on its fuel (`CompCtx.Moves.loop`) |
| C101 | links behind a text | the tokens of the whole are those of the parts (`tokens_append`); the variables of the search behind the text are related to those without it (`LinkDown`); a value always has the name of a tag and of an attribute in front of it (`value_tag`), so the ones of the text in front are not used |
| C102 | formatting with other line endings | the characters of the other text are those of the first one with `\r` in front of each `\n` (`charsOf_crlf`), so trimming commutes with the change; the lines are the same up to a `\r` at the end, which tidying drops (`crLines`, `tidy_cr`); lengths are only measured where there is no line end (`nodeWrap_cr`); induction over the tree (`beautify_cr`) |
| C103 | links with other line endings | the tokens are those of C92; names have no line end (`names_on_line`); a path value with a line end is no link in either text (`createLink_eol`), otherwise the offsets of the quotes correspond (`createLink_cr`); the invariant of C47 says which values are ids or the base; fold over the tokens (`linkFold_cr`) |
| C104 | hovering with other line endings | both scanning loops commute with the change (`ln_scanWhile`, `ln_attrBefore`, from `ln_scan` of C92); letters and digits around an entity are the same bytes (`lettersBefore_crlf`, `lettersFrom_crlf`); what is found lies between characters (`tokenRange_bd`), so the text of its range can be compared (`tokenRange_found`) |
| C105 | closing tags and quotes while typing with other line endings | the node in front of the cursor is the same (`findNodeBefore_crNodes`); the bytes next to the cursor are the ones asked for in both texts or in neither (`getStr_end`, `getStr_at`); both loops commute with the change (`ln_endsAt`, `ln_quoteLoop`), the second one because the byte in front of the cursor is `=` and no line end |
| C73 | raw content | invariant over the tokens so far: the hidden fields are functions of the tokens of the open tag |

## 6. Where the code departs from what a user expects

Each item is proved for the model, as a theorem with a concrete witness.

* Scanning panics on some non-ASCII texts (C08); `</SCRIPT>` does not end a script, `</scriptx` does (C10);
  the content of `<script type="text/javascript">` is read as HTML (C73).
* The value of an attribute is lost when white space follows `=` (C18).
* `find_token_type_in_node` panics for elements without offsets (C25).
* Linked editing and rename are off when white space follows `<` (C26); the matching position is not
  involutive (C27).
* Folding: the range limit is exceeded or drops everything (C33), and can index out of bounds (C34).
* Selection ranges can overlap, or not contain the cursor; they panic on `<p><a <NBSP></p>`, which is parsed (C35).
* Formatting panics for elements without a name and for ranges at the document start, on the first line
  or with tab size 0 (C36), loses doctypes and comments at the top level and text between roots
  (C37), needs up to three passes to settle (C38), loses the content of unclosed elements (C65), starts range edits a line late (C55), glues roots together, glues the
  end tag to a last child, wraps elements that fit exactly, and writes empty lines between
  attributes when indenting with tabs (C56).
* Quotes and end tags are offered inside comments behind a tag that is cut short (C39, C40).
* Attribute names are proposed where a value belongs (C41); edits can span several lines (C57).
* The documentation of proposed start tags is Markdown even for clients that do not support it, and that of character
  references lacks its closing quote (C85).
* Values always get double quotes, a closing quote is replaced, non-ASCII values panic (C59); nothing is
  proposed before the first element (C61); a second end tag is proposed (C62).
* Completion behind the last line panics; so does completion in an attribute value with a non-ASCII character in the word at the cursor (C49).
* Hover compares attribute names with their case, and panics behind a tag that is cut short in front of a no-break space (C42), and reads the wrong client capability (C52).
* Custom tags with upper-case names cannot be found (C45).
* Links: a `base` tag swallows a link (C53); panics (C54); a reference can change the authority of
  its base (C48); a part of a query can stay in the target of a file (C47).
* Formatting does not know void elements of custom providers and drops what follows them (C64).
* The built-in documentation of attributes that are global too (`title` on `link`) is never shown; `region` is proposed
  twice for `role` (C70). For references to two characters hover shows a number that is none (`U+223E333`), and
  references such as `&cups;` are not known (C71).
* An accepted end tag does not close `<SCRIPT>` (C72); `<div><p></|p>` proposes `div>` and loses the end tag of `p` (C81).
* Accepting `data-` for the name of an attribute with a value adds a second value (C83).
* Renaming to the name of an unclosed element in between makes the end tag close that element (C86).
* `</STYLE>` and `</SCRIPT>` do not end raw content, `<BR>` is not void (C87).
* Attributes and values with references only are documented in proposals, not on hover (C89).
* Folding compares the names of tags with their case even when the parser ignores it: `<P>` … `</p>` does not fold (C91).
* Linked editing and rename take the name in the end tag to be as long as the one in the start tag: with the Kelvin sign and `k` they replace the text behind the end tag (C26, C28).
* Linked editing, matching tag and rename take the bytes directly behind `<` for the name: in `<\nb>` the range is the line ending, and with `\r\n` it ends between `\r` and `\n` (C92).
* Selection ranges take the last byte of an element for the `>` of its end tag: in `</p\n<i>`, where the `>` is missing, it is the line ending (C92).
* Only `\n` ends a line for formatting a range: with `\r\n` blanks at the end of the last line stay outside of the edit. Formatting always writes `\n`, also into documents with `\r\n` (C102).
* Accepting the end tag proposed behind `<script>` may give a text that the parser panics on, if tags follow (C72).

## 7. Tests of the theorems against wrong programs

`tools/mutate.py` applies an edit to a copy of the model, rebuilds, and records which theorems fail in
`seeded/LOG.jsonl`. An entry without failing theorems led to a stronger theorem (field `tightened`)
or names an edit that no listed property forbids.
