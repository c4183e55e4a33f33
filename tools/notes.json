{
 "C08": {
  "status": "proved",
  "note": "C08_panics_iff is exact; C08_split_character says which characters can be split; C08_plain_text_returns and C08_ascii_no_panic are sufficient conditions on the text alone; three panics are shown on concrete texts."
 },
 "C10": {
  "status": "proved",
  "note": "exact, by uniqueness of the end; the case sensitivity of end tags by witness"
 },
 "C33": {
  "status": "proved",
  "note": "the bound with the exact excess (C33_bound), the stronger statement for nested or disjoint ranges (C33_bound_nested), and witnesses for the excess and for the loss of deeply nested ranges"
 },
 "C34": {
  "status": "proved",
  "note": "exact panic condition, with a witness for the index out of bounds"
 },
 "C35": {
  "status": "proved",
  "note": "nesting and containing the cursor are equivalences (C35_strictly_nested_iff, C35_contains_cursor_iff); the exceptions are defects, shown with witnesses (C35_overlap, C35_bracket, C35_outside, C35_left_open, C35_panics)"
 },
 "C42": {
  "status": "proved",
  "note": "Tag names, attribute names and values, character references, content, and no answer outside; the range contains the cursor; no panic for documents whose scan returns. C42_attribute_case_matters records that attribute names are compared with their case in case-insensitive mode as well."
 },
 "C52": {
  "status": "proved",
  "note": "C52_contents_kind is the part that holds; C52_hover_format_ignored refutes the rest: the capability read is that of completion items."
 },
 "C47": {
  "status": "proved",
  "note": "Exact list of links (C47_exact), their order and ranges, targets of fragments and http references, references that give no link."
 },
 "C48": {
  "status": "proved",
  "note": "No dot segments and the scheme: proved for all references and bases. The authority is kept, and the whole result is determined, if the walk does not go up beyond the top; C48_authority_changed and C48_authority_changed_empty_path refute it otherwise. Exact condition for panics. Further defects of the result are recorded (query and fragment lost, query of the base read as path, extra slash). Paths are modelled as on Unix."
 },
 "C53": {
  "status": "proved",
  "note": "Proved for documents without a base tag; C53_link_swallowed refutes the general statement."
 },
 "C54": {
  "status": "proved",
  "note": "Exact: C54_panics_iff, and C54_default_context for documents without base element; three witnesses of panics. The parser's acceptance of what the code unwraps is a hypothesis (Forgiving)."
 },
 "C36": {
  "status": "proved",
  "note": "One edit, whole document; returns exactly when every shown element has a name (UTF-8 documents that parse, ASCII documents); for ranges of UTF-8 documents (and ASCII documents) an exact characterisation. The panics are proved with witnesses."
 },
 "C37": {
  "status": "proved",
  "note": "exact description of the result for all documents (C37_pieces); that not all characters are preserved is proved with witnesses (C37_fails)"
 },
 "C38": {
  "status": "proved",
  "note": "For all printed (well-formed) documents; for all UTF-8 documents the passes are also shown to return. Idempotence after a single or a second pass is refuted by witnesses. Nothing is claimed for documents that are not well-formed."
 },
 "C55": {
  "status": "proved",
  "note": "C55_range_edit is an equivalence for all UTF-8 documents; the missing indentation and the wrong start of the edit are recorded as failures with witnesses"
 },
 "C39": {
  "note": "C39_offered_iff needs that no tag in front of the cursor is cut short by another '<'; C39_fails_in_comment shows that the restriction is needed. C39_needs_equals holds without it."
 },
 "C40": {
  "note": "The characterisations need that no tag in front of the cursor is cut short by another '<'; C40_fails_in_comment shows that the restriction is needed."
 },
 "C41": {
  "status": "proved",
  "note": "for documents whose tokens and tree are computed (C08, C11); in_name needs an ASCII name for the end of the range"
 },
 "C57": {
  "status": "proved",
  "note": "no hypotheses on document or tree"
 },
 "C58": {
  "status": "proved",
  "note": "for documents whose tokens and tree are computed (C08, C11) and calls that return; valid UTF-8 for the line indentation"
 },
 "C60": {
  "status": "proved",
  "note": "for documents whose tokens and tree are computed (C08, C11) and calls that return; the element in front of the cursor is the one C23 describes; white space and name each in their own theorem"
 },
 "C59": {
  "status": "proved",
  "note": "for documents whose tokens and tree are computed (C08, C11), valid UTF-8, and calls that return"
 },
 "C61": {
  "status": "proved",
  "note": "for documents whose tokens and tree are computed (C08, C11), valid UTF-8, positions of the document, and calls that return"
 },
 "C62": {
  "status": "proved",
  "note": "for documents whose tokens and tree are computed (C08, C11) and calls that return"
 },
 "C49": {
  "status": "proved",
  "note": "exact panic condition of completion for UTF-8 documents; all services for plain UTF-8 and for ASCII documents; with a lawful position mapping and positions that it yields; links and formatting have their own theorems (C54, C36)"
 },
 "C56": {
  "status": "proved",
  "note": "C56_layout gives the exact text relative to Spec/Layout; the other theorems are consequences a reader can check without it. C56_roots_glued, C56_end_tag_glued, C56_just_fits and C56_attributes_apart are the witnesses of the exceptions."
 },
 "C63": {
  "status": "proved",
  "note": "Providers and participants are assumed to be pure."
 },
 "C64": {
  "status": "proved",
  "note": "proved for parsing and folding; C64_format_ignores_managers says what formatting does instead, C64_format_fails_for_custom_void is the witness"
 },
 "C65": {
  "status": "proved",
  "note": "For all printed (well-formed) documents; for all UTF-8 documents formatting and both parses are shown to return. A witness shows that it fails for unclosed elements."
 },
 "C85": {
  "status": "proved",
  "note": "C85_proposals covers every item of every answer; C85_markdown_for_tags is the departure for clients without Markdown. C62_void_iff says what completion takes for void."
 },
 "C86": {
  "status": "proved",
  "note": "C86_end_tag, C86_unclosed and C86_only_start_tag compare the two trees; C86_rename and C86_rename_one tie them to do_rename and the application of its edits, for UTF-8 documents with success of the second parse, and C86_undo to renaming back. C86_needs_fresh_name is the witness that the condition on the names is needed. The texts around the tags end in content (EndsInContent), so the tags are tags and not part of a comment or of raw text."
 },
 "C87": {
  "status": "proved",
  "note": "C87_tokens and C87_tree are proved by comparing the two runs step by step; C87_without_raw_tags gives the first condition for texts without script and style tags. C87_needs_raw_tags and C87_needs_void_spelling show that the conditions are needed."
 },
 "C88": {
  "status": "proved",
  "note": "Strengthens C42 and C43: the conditions are on the tree only, not on the scan that hover does itself. C88_no_panic covers start tags, C88_end_tag_no_panic end tags, C88_panics_only everything else."
 },
 "C89": {
  "status": "proved",
  "note": "C89_references_only_limit and C89_two_providers_limit show that the conditions are needed. For elements the proposal is Markdown always, so the texts are the same for clients with Markdown (see C85)."
 },
 "C90": {
  "status": "proved",
  "note": "C90_repeated_limit is the witness for ids written twice."
 },
 "C91": {
  "status": "proved",
  "note": "Holds where C87 holds. C91_folding_limit: folding compares names with their case although the parser was told not to."
 },
 "C92": {
  "status": "proved",
  "note": "C92_tokens and C92_tree are equations, panics included, for every UTF-8 text. C92_positions shows the condition on documents for the reference document when the first text has no `\\r`. C92_linked_limit shows why the names have to be on one line with the brackets: in `<\\nb>` the linked range is the line ending. C92_selection is an equation, panics included, for documents whose offsets are in the order of their positions (as in the reference documents); C92_selection_limit is the exception: in `</p\\n<i>` the line ending is taken for the `>`."
 },
 "C93": {
  "status": "proved",
  "note": "The model bounds each loop by a number of rounds and reports `fuel` when they are used up; the theorem says this never happens, also for trees that do not belong to the text. Recursion over trees is structural. Closures given by the client (participants, resolve_reference) are assumed to return."
 },
 "C26": {
  "status": "proved",
  "note": ""
 },
 "C32": {
  "status": "proved",
  "note": "Soundness for every range; completeness for comments, balanced elements and regions."
 },
 "C94": {
  "status": "proved",
  "note": "Linked editing, matching tag and rename take the length of the name in the start tag for the end tag; the hypothesis NameFits says that this many bytes are in front of the place. It always holds when case matters (C94_fits). C94_reference: the reference document meets the assumption on positions."
 },
 "C95": {
  "status": "proved",
  "note": "C95_folding and C95_symbols are the property; C95_reference shows that documents of the reference implementation of positions meet the hypothesis on positions. C95_limit, C95_needs_bracket and C95_needs_closed prove that the conditions are needed."
 },
 "C96": {
  "status": "proved",
  "note": "C96_reference: documents of the reference implementation of positions meet the hypothesis PutBehind. C96_needs_closed: the text in front has to be complete. Selection ranges are in C98, folding in C97, completion in C99 and C100, links in C101. Hover is for services without participants: a participant sees the position and may answer differently."
 },
 "C97": {
  "status": "proved",
  "note": "C97_reference: for the reference implementation of positions there is no condition on positions. C97_needs_balanced: the condition on regions is needed. Balanced is the specification of C32."
 },
 "C98": {
  "status": "proved",
  "note": "C98_outer_grows: elements in front; C98_moved: no elements in front; C98_unclosed, C98_unclosed_alone: in an element without end tag the chain has no range around it. A document without elements is left out: its only range is empty and at the cursor."
 },
 "C99": {
  "status": "proved",
  "note": "C99_tag_complete, C99_quote_complete: equality of the answers, panics included. C99_needs_closed: the text in front has to be complete. In front of the first element the node before the cursor is one of the text in front; not claimed there."
 },
 "C100": {
  "status": "proved",
  "note": "C100_proposals: all kinds of proposals. C100_needs_line_break and C100_needs_no_data: two of the hypotheses are needed. Participants see the position and may answer differently, so the theorem is for services without them. It says nothing when completion panics without the text in front."
 },
 "C101": {
  "status": "proved",
  "note": "C101_links: all links; C101_links_elsewhere: equality if no link leads into the document; C101_reference: documents of the reference implementation of positions meet the hypotheses on positions. C101_needs_no_base, C101_finds_ids_behind: witnesses for the two exceptions. Elements may be left open in front."
 },
 "C102": {
  "status": "proved",
  "note": "C102_format: equality of the results, panics included, for all options. C102_needs_values: a line end in a value is copied. C102_range_limit: formatting a range depends on the line endings. C92_positions gives the pairs of documents of the reference implementation of positions."
 },
 "C103": {
  "status": "proved",
  "note": "C103_links: equality of the results, panics included. A path value with a line end is never a link, with either line ending. C103_needs_base: a base with a line end shows in the targets if the document context copies it. C92_positions gives the pairs of documents of the reference implementation of positions."
 },
 "C104": {
  "status": "proved",
  "note": "C104_hover: equality of the results, panics included. C104_needs_value: the participants see the line ends of a value. C92_positions gives the pairs of documents of the reference implementation of positions."
 },
 "C105": {
  "status": "proved",
  "note": "C105_tag_complete, C105_quote_complete: equality of the answers, panics included. C105_needs_place: the same byte offset is another place of the other text. C92_positions gives the pairs of documents of the reference implementation of positions."
 }
}