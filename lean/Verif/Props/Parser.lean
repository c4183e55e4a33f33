import Verif.Proof.ParseEnd
import Verif.Proof.PrintTotal
import Verif.Props.Scanner
import Verif.Spec.Ok

/-!
# Properties of the parser (C11 - C19, C51)

`parse u cs void src` is `parse_html_document` on the text `src` with the Unicode tables
`u`, the option `case_sensitive = cs` and the void element list `void`; the result is the
list of root nodes.  `InForest roots n` says that `n` is one of the nodes of the document.
-/

namespace Html.Props
open Html Html.Spec

theorem parse_tokens {u : Uni} {cs : Bool} {src : Str} :
    tokensF (parserCfg u cs src) (2 * src.length + 1) (.new 0 .WithinContent) =
      tokens (parserCfg u cs src) (.new 0 .WithinContent) := by
  have := mu_le (parserCfg u cs src) (.new 0 .WithinContent)
  have h := tokensF_fuel (c := parserCfg u cs src) (f := 2 * src.length + 1)
    (s := .new 0 .WithinContent) (by simp only [Sc.new, parserCfg] at *; omega) 1
  rw [← h]; rfl

/-! ### C11 -/

/-- C11: on every UTF-8 text the parser returns a document if and only if the scanner
reaches the end of the text. -/
theorem C11_parser_returns_iff_scanner_does (u : Uni) (cs : Bool) (void : List Str) (src : Str)
    (cps : List Nat) (hu : Utf8 cps src) :
    (∃ roots, parse u cs void src = .ok roots) ↔
      ∃ ts, tokens (parserCfg u cs src) (.new 0 .WithinContent) = .ok ts := by
  rw [← parse_tokens]
  constructor
  · rintro ⟨roots, h⟩
    unfold parse at h
    obtain ⟨p, h1, h⟩ := bind_ok h
    exact parseLoop_tokens h1
  · rintro ⟨ts, h⟩
    obtain ⟨p', hp⟩ := parseLoop_total (c := parserCfg u cs src) (void := void)
      (asciiNext_of_utf8 hu) PInv.init h
    exact ⟨_, by unfold parse; simp only [parserCfg] at hp ⊢; rw [hp]; rfl⟩

/-- C11: whatever the bytes of the text are, no `unwrap()` of the parser fails and its loop
ends: the only possible panic is a slice off a character boundary. -/
theorem C11_no_unwrap_fails (u : Uni) (cs : Bool) (void : List Str) (src : Str) (e : Panic)
    (h : parse u cs void src = .error e) : e = .slice := by
  unfold parse at h
  rcases bind_err h with h | ⟨p, _, h⟩
  · refine parseLoop_err (c := parserCfg u cs src) PInv.init ?_ h
    have := mu_le (parserCfg u cs src) (.new 0 .WithinContent)
    simp only [Sc.new, parserCfg] at *; omega
  · cases h

/-- C11: the parser never panics on ASCII texts. -/
theorem C11_ascii_never_panics (u : Uni) (cs : Bool) (void : List Str) (src : Str)
    (h : isAscii src) : ∃ roots, parse u cs void src = .ok roots := by
  have hc := clean_of_ascii h
  have hm := mu_le (parserCfg u cs src) (.new 0 .WithinContent)
  obtain ⟨ts, ht⟩ := tokensF_clean (c := parserCfg u cs src) (s := .new 0 .WithinContent)
    (f := 2 * src.length + 1) hc (.inr (.inl rfl)) (by simp only [Sc.new, parserCfg] at *; omega)
  obtain ⟨p', hp⟩ := parseLoop_total (c := parserCfg u cs src) (void := void) hc.next PInv.init ht
  exact ⟨_, by unfold parse; simp only [parserCfg] at hp ⊢; rw [hp]; rfl⟩

/-- C11: nor on UTF-8 texts without non-ASCII white space or C1 controls whose last
character is ASCII. -/
theorem C11_utf8_never_panics (u : Uni) (cs : Bool) (void : List Str) (src : Str) (cps : List Nat)
    (hu : Utf8 cps src) (hodd : ∀ cp ∈ cps, ¬ OddSpace cp)
    (hlast : ∀ b, src.getLast? = some b → b < 128) : ∃ roots, parse u cs void src = .ok roots := by
  have hc := clean_of_utf8 hu hodd hlast
  have hm := mu_le (parserCfg u cs src) (.new 0 .WithinContent)
  obtain ⟨ts, ht⟩ := tokensF_clean (c := parserCfg u cs src) (s := .new 0 .WithinContent)
    (f := 2 * src.length + 1) hc (.inr (.inl rfl)) (by simp only [Sc.new, parserCfg] at *; omega)
  obtain ⟨p', hp⟩ := parseLoop_total (c := parserCfg u cs src) (void := void) hc.next PInv.init ht
  exact ⟨_, by unfold parse; simp only [parserCfg] at hp ⊢; rw [hp]; rfl⟩

/-- C11, its limit: the scanner's panics are the parser's. -/
theorem C11_parser_panics_with_scanner (u : Uni) (cs : Bool) (void : List Str) :
    parse u cs void b!"<div \u00a0>" = .error .slice := by
  cases cs <;> krfl

/-- The Unicode tables used in the examples. -/
def exUni : Uni := ⟨fun _ => true, id⟩

/-- A text that takes many of the parser's paths. -/
def exText : Str := b!"<a x=1 y='2'><b>t<br></b><c></a></q><d/><e z"

example : isAscii exText := by unfold isAscii; decide +kernel
example : returns (parse exUni false [b!"br"] exText) (fun roots =>
    roots.map (fun n => (n.tag, n.start, n.stop, n.closed)) =
      [(some b!"a", 0, 32, true), (some b!"d", 36, 40, true), (some b!"e", 40, 44, false)]) = true := by
  decide +kernel

/-! ### C12 -/

/-- C12: the roots are ordered, disjoint, non-empty ranges inside the text. -/
theorem C12_roots_ordered (u : Uni) (cs : Bool) (void : List Str) (src : Str) (roots : List Node)
    (h : parse u cs void src = .ok roots) : Siblings 0 roots src.length :=
  (parse_kids h).sib

/-- C12: every node is a non-empty range inside the text; its children lie between the end
of its start tag and the start of its end tag (its end, if there is no end tag), ordered
and disjoint. -/
theorem C12_well_nested (u : Uni) (cs : Bool) (void : List Str) (src : Str) (roots : List Node)
    (n : Node) (h : parse u cs void src = .ok roots) (hn : InForest roots n) :
    n.start < n.stop ∧ n.stop ≤ src.length ∧
    (n.children ≠ [] → ∃ e, n.startTagEnd = some e ∧ n.start < e ∧
      Siblings e n.children (contentEnd n) ∧ contentEnd n ≤ n.stop) := by
  have hd := parse_done h hn
  refine ⟨hd.lt, hd.le, fun hc => ?_⟩
  cases he : n.startTagEnd with
  | none => exact absurd (hd.noste he).1 hc
  | some e =>
    obtain ⟨h1, _, h2, h3⟩ := hd.ste e he
    exact ⟨e, rfl, h1, h2, h3⟩

example : returns (parse exUni false [b!"br"] exText) (fun roots =>
    (roots.flatMap (·.children)).map (fun n => (n.tag, n.start, n.stop, n.children.length)) =
      [(some b!"b", 13, 25, 1), (some b!"c", 25, 28, 0)]) = true := by decide +kernel

/-! ### C13 -/

/-- C13: the nodes in pre-order are the start-tag-open tokens in order. -/
theorem C13_one_node_per_bracket (u : Uni) (cs : Bool) (void : List Str) (src : Str)
    (roots : List Node) (h : parse u cs void src = .ok roots) :
    ∃ ts, tokens (parserCfg u cs src) (.new 0 .WithinContent) = .ok ts ∧
      preorder roots = (ts.filter (fun t => t.type = .StartTagOpen)).map (·.offset) := by
  unfold parse at h
  obtain ⟨p, h1, h⟩ := bind_ok h
  cases h
  obtain ⟨ts, ht⟩ := parseLoop_tokens h1
  refine ⟨ts, by rw [← parse_tokens]; exact ht, ?_⟩
  rw [finishAll_pre, parseLoop_pre h1 ht]
  rfl

example : returns (parse exUni false [b!"br"] exText) (fun roots =>
    preorder roots = [0, 13, 17, 25, 36, 40]) = true := by decide +kernel

/-! ### C14 -/

/-- C14: the offsets of every node point at the right characters: `start` at `<`,
`start_tag_end` just behind a `>`, `end_tag_start` at `</`, and a closed node ends
just behind a `>` or (cut end tag) at a `<`. -/
theorem C14_offsets_point_at_brackets (u : Uni) (cs : Bool) (void : List Str) (src : Str)
    (roots : List Node) (n : Node) (h : parse u cs void src = .ok roots) (hn : InForest roots n) :
    At src n.start b!"<" ∧
    (∀ s, n.startTagEnd = some s → n.start < s ∧ s ≤ n.stop ∧ At src (s - 1) b!">") ∧
    (∀ e, n.endTagStart = some e → At src e b!"</" ∧ e + 2 ≤ n.stop ∧
      ∃ s, n.startTagEnd = some s ∧ n.start < s ∧ s ≤ e) ∧
    (n.closed = true → At src (n.stop - 1) b!">" ∨ At src n.stop b!"<") := by
  have hd := parse_done h hn
  have hste : ∀ s, n.startTagEnd = some s → n.start < s ∧ s ≤ n.stop ∧ At src (s - 1) b!">" := by
    intro s hs
    obtain ⟨h1, h2, h3, h4⟩ := hd.ste s hs
    exact ⟨h1, Nat.le_trans h3.le h4, h2⟩
  refine ⟨at_single hd.opn, hste, fun e he => ?_, fun hc => ?_⟩
  · obtain ⟨h1, h2, h3, name, _, h4⟩ := hd.ets e he
    refine ⟨h2, ?_, ?_⟩
    · have key : ∀ {i hi}, NameAfter src i name hi → i ≤ hi := by
        intro i hi hx
        unfold NameAfter at hx
        split at hx
        · obtain ⟨w, _, _, _, _, hx⟩ := hx; omega
        · obtain ⟨w, _, _, _, hx⟩ := hx; omega
      rcases h4 with ⟨_, h4⟩ | ⟨_, h4⟩ <;> have := key h4.spec <;> omega
    · cases hs : n.startTagEnd with
      | none => exact absurd hs h3
      | some s =>
        obtain ⟨h5, _, h6, _⟩ := hd.ste s hs
        have := h6.le
        simp only [contentEnd, he, Option.getD_some] at this
        exact ⟨s, rfl, h5, this⟩
  · cases he : n.endTagStart with
    | none => exact .inl (hste _ (hd.cls hc he).1).2.2
    | some e =>
      obtain ⟨_, _, _, _, _, h4⟩ := hd.ets e he
      rcases h4 with ⟨h4, _⟩ | ⟨h4, _⟩
      · exact .inl h4
      · exact .inr (at_single h4)

/-- C14: a node whose start tag is cut by a `<` or by the end of the text has no content
and ends there. -/
theorem C14_cut_start_tag (u : Uni) (cs : Bool) (void : List Str) (src : Str)
    (roots : List Node) (n : Node) (h : parse u cs void src = .ok roots) (hn : InForest roots n)
    (hs : n.startTagEnd = none) :
    n.children = [] ∧ n.endTagStart = none ∧ n.closed = false ∧
    (At src n.stop b!"<" ∨ n.stop = src.length) := by
  obtain ⟨h1, h2, h3, h4⟩ := (parse_done h hn).noste hs
  exact ⟨h1, h2, h3, h4.imp at_single id⟩

example : returns (parse exUni false [b!"br"] b!"<a><b></a<c") (fun roots =>
    roots.map (fun n => (n.start, n.startTagEnd, n.endTagStart, n.stop, n.closed)) =
      [(0, some 3, some 6, 9, true), (9, none, none, 11, false)]) = true := by decide +kernel

/-! ### C15 -/

/-- C15: the tag of a node is the (maximal) element name written after its `<`, with only
white space in between, and inside its start tag; no tag means that there is no name. -/
theorem C15_tag_is_source_text (u : Uni) (cs : Bool) (void : List Str) (src : Str)
    (roots : List Node) (n : Node) (h : parse u cs void src = .ok roots) (hn : InForest roots n) :
    NameAfter src (n.start + 1) n.tag (n.startTagEnd.getD n.stop) :=
  (parse_done h hn).name.spec

/-- C15: if no white space follows the `<`, the tag is the text right behind it. -/
theorem C15_tag_right_behind_bracket (u : Uni) (cs : Bool) (void : List Str) (src : Str)
    (roots : List Node) (n : Node) (t : Str) (h : parse u cs void src = .ok roots)
    (hn : InForest roots n) (ht : n.tag = some t)
    (hw : ∀ b, src[n.start + 1]? = some b → ¬ Space b) :
    At src (n.start + 1) t ∧ ElementName t := by
  have := (parse_done h hn).name.spec
  rw [ht] at this
  obtain ⟨w, h1, h2, h3, _⟩ := this
  cases w with
  | nil => exact ⟨h2, h3⟩
  | cons b w =>
    obtain ⟨r, hr⟩ := h2
    refine absurd (h1 b List.mem_cons_self) (hw b ?_)
    have : (src.drop (n.start + 1))[0]? = some b := by
      simp only [parserCfg] at hr; rw [hr]; rfl
    rwa [List.getElem?_drop, Nat.add_zero] at this

example : returns (parse exUni false [] b!"< div-x ><></>") (fun roots =>
    (roots.map (·.tag), roots.flatMap (fun n => n.children.map (·.tag))) =
      ([some b!"div-x"], [none])) = true := by decide +kernel

/-! ### C16 -/

/-- C16: if a node has an end tag, the name in the end tag is the node's own name (up to
case, if the parser is not case sensitive), and the end tag is complete up to its
`>` or cut by a `<`. -/
theorem C16_end_tag_has_own_name (u : Uni) (cs : Bool) (void : List Str) (src : Str)
    (roots : List Node) (n : Node) (e : Nat) (h : parse u cs void src = .ok roots)
    (hn : InForest roots n) (he : n.endTagStart = some e) :
    At src e b!"</" ∧ ∃ name, SameName u cs n.tag name ∧
      ((At src (n.stop - 1) b!">" ∧ NameAfter src (e + 2) name (n.stop - 1)) ∨
       (At src n.stop b!"<" ∧ NameAfter src (e + 2) name n.stop)) := by
  obtain ⟨_, h2, _, name, h3, h4⟩ := (parse_done h hn).ets e he
  refine ⟨h2, name, h3, ?_⟩
  rcases h4 with ⟨h4, h5⟩ | ⟨h4, h5⟩
  · exact .inl ⟨h4, h5.spec⟩
  · exact .inr ⟨at_single h4, h5.spec⟩

/-- C16: the elements inside that were left open all end at the end tag; none of them
has the name of the closed element (so an end tag closes the innermost open element
of its name). -/
theorem C16_inner_open_end_at_end_tag (u : Uni) (cs : Bool) (void : List Str) (src : Str)
    (roots : List Node) (n m : Node) (e : Nat) (h : parse u cs void src = .ok roots)
    (hn : InForest roots n) (he : n.endTagStart = some e) (hm : OpenInside n m) :
    m.closed = false ∧ m.stop = e ∧ ¬ SameName u cs m.tag n.tag := by
  obtain ⟨h1, h2⟩ := (parse_done h hn).inner e he m hm
  refine ⟨?_, h1, h2⟩
  cases hm with
  | child _ ho => exact ho.1
  | step _ _ ho => exact ho.1

/-- C16: an element is left open only by the end of its parent: it is the last child and
ends where the content of the parent ends; at top level, at the end of the text. -/
theorem C16_left_open_ends_with_parent (u : Uni) (cs : Bool) (void : List Str) (src : Str)
    (roots : List Node) (h : parse u cs void src = .ok roots) :
    (∀ n, InForest roots n → ∀ d ∈ n.children, LeftOpen d →
      n.children.getLast? = some d ∧ d.stop = contentEnd n) ∧
    (∀ d ∈ roots, LeftOpen d → roots.getLast? = some d ∧ d.stop = src.length) := by
  refine ⟨fun n hn => (parse_done h hn).left, fun d hd ho => ?_⟩
  obtain ⟨h1, h2, _⟩ := (parse_kids h).left d hd ho
  exact ⟨h1, h2⟩

example : returns (parse exUni false [] b!"<a><b><c></A >") (fun roots =>
    (roots ++ roots.flatMap (·.children) ++ (roots.flatMap (·.children)).flatMap (·.children)).map
      (fun n => (n.endTagStart, n.stop, n.closed, n.startTagEnd)) =
      [(some 9, 14, true, some 3), (none, 9, false, some 6), (none, 9, false, some 9)]) = true := by decide +kernel

/-! ### C17 -/

/-- C17: a node is closed iff it has an end tag or its start tag ends it. -/
theorem C17_closed_iff (u : Uni) (cs : Bool) (void : List Str) (src : Str)
    (roots : List Node) (n : Node) (h : parse u cs void src = .ok roots) (hn : InForest roots n) :
    (n.endTagStart ≠ none → n.closed = true) ∧
    (n.closed = true → n.endTagStart = none →
      n.startTagEnd = some n.stop ∧ n.children = [] ∧
      (At src (n.stop - 2) b!"/>" ∨ ∃ t, n.tag = some t ∧ t ∈ void)) ∧
    (∀ t, n.tag = some t → t ∈ void → n.startTagEnd ≠ none → n.closed = true) ∧
    (∀ e, n.startTagEnd = some e → At src (e - 2) b!"/>" →
      n.closed = true ∨ n.tag = none ∨ SlashValue src n.attributes (e - 1)) := by
  have hd := parse_done h hn
  refine ⟨fun he => ?_, hd.cls, fun t h1 h2 h3 => (hd.voidE t h1 h2 h3).1, fun e h1 h2 => ?_⟩
  · cases he' : n.endTagStart with
    | none => exact absurd he' he
    | some e => exact (hd.ets e he').1
  · rcases hd.slash e h1 h2 with h3 | h3
    · exact .inl h3.1
    · exact .inr h3

/-- C17, the exception in the last clause is real: in `<a b=x/>` the slash belongs to the
attribute value and the element is not closed. -/
theorem C17_slash_in_value_does_not_close (u : Uni) :
    ∃ n, parse u false [] b!"<a b=x/>" = .ok [n] ∧ n.closed = false ∧
      n.startTagEnd = some 8 ∧ n.attributes = [(b!"b", ⟨some b!"x/", 3⟩)] :=
  ⟨⟨some b!"a", 0, 8, [], false, some 8, none, [(b!"b", ⟨some b!"x/", 3⟩)]⟩, by krfl, rfl, rfl, rfl⟩

example : returns (parse exUni false [b!"br"] b!"<a/><br><c></c><d>") (fun roots =>
    roots.map (·.closed) = [true, true, true, false]) = true := by decide +kernel

/-! ### C18 -/

/-- C18: every attribute of a node is written inside the node's own start tag, with its
name at its offset and its value right behind the `=`; and names do not repeat. -/
theorem C18_attributes_from_own_start_tag (u : Uni) (cs : Bool) (void : List Str) (src : Str)
    (roots : List Node) (n : Node) (h : parse u cs void src = .ok roots) (hn : InForest roots n) :
    (∀ name a, (name, a) ∈ n.attributes →
      AttrAt src n.start (n.startTagEnd.getD n.stop) name a) ∧
    (n.attributes.map (·.1)).Nodup := by
  have hd := parse_done h hn
  exact ⟨fun name a ha => hd.attrs (name, a) ha, hd.nodup⟩

/-- C18: exactly the attributes that are written: the start tags of the tree (in pre-order,
with name and attributes) are the start tags read off the token stream. -/
theorem C18_start_tags_exact (u : Uni) (cs : Bool) (void : List Str) (src : Str)
    (roots : List Node) (h : parse u cs void src = .ok roots) :
    ∃ ts, tokens (parserCfg u cs src) (.new 0 .WithinContent) = .ok ts ∧
      infos roots = (ts.foldl (readTag src) ([], none)).1 := by
  unfold parse at h
  obtain ⟨p, h1, h⟩ := bind_ok h
  cases h
  obtain ⟨ts, ht⟩ := parseLoop_tokens h1
  refine ⟨ts, by rw [← parse_tokens]; exact ht, ?_⟩
  rw [finishAll_info]
  exact parseLoop_info (c := parserCfg u cs src) (r := ([], none))
    ⟨rfl, fun hs => by rcases hs with hs | hs <;> cases hs⟩ PInv.init h1 ht

example : returns (parse exUni false [] b!"<a x=1 y ='2' z><b x=></b></a>") (fun roots =>
    (roots.map (·.attributes), roots.flatMap (fun n => n.children.map (·.attributes))) =
      ([[(b!"x", ⟨some b!"1", 3⟩), (b!"y", ⟨some b!"'2'", 7⟩), (b!"z", ⟨none, 14⟩)]],
       [[(b!"x", ⟨some [], 19⟩)]])) = true := by decide +kernel

/-- C18, a limit of the scanner: white space behind the `=` (HTML allows it) detaches the
value: the attribute gets the empty value, and the value is read as an attribute name. -/
theorem C18_value_behind_space_is_lost (u : Uni) :
    ∃ n, parse u false [] b!"<a x= '1'></a>" = .ok [n] ∧
      n.attributes = [(b!"x", ⟨some [], 3⟩), (b!"1", ⟨none, 7⟩)] :=
  ⟨⟨some b!"a", 0, 14, [], true, some 10, some 10, [(b!"x", ⟨some [], 3⟩), (b!"1", ⟨none, 7⟩)]⟩,
    by krfl, rfl⟩

/-! ### C19 -/

/-- C19: a void element with a complete start tag is closed, has no children and no end tag,
and ends where its start tag ends. -/
theorem C19_void_elements_have_no_content (u : Uni) (cs : Bool) (void : List Str) (src : Str)
    (roots : List Node) (n : Node) (t : Str) (h : parse u cs void src = .ok roots)
    (hn : InForest roots n) (ht : n.tag = some t) (hv : t ∈ void) (hs : n.startTagEnd ≠ none) :
    n.closed = true ∧ n.children = [] ∧ n.endTagStart = none ∧ n.startTagEnd = some n.stop := by
  have hd := parse_done h hn
  obtain ⟨h1, h2⟩ := hd.voidE t ht hv hs
  obtain ⟨h3, h4, _⟩ := hd.cls h1 h2
  exact ⟨h1, h4, h2, h3⟩

/-- C19, its limit: the list is compared without case folding, `<BR>` is not void. -/
theorem C19_void_is_case_sensitive (u : Uni) :
    ∃ n, parse u false [b!"br"] b!"<BR>x" = .ok [n] ∧ n.closed = false ∧ n.stop = 5 :=
  ⟨⟨some b!"BR", 0, 5, [], false, some 4, none, []⟩, by krfl, rfl, rfl⟩

example : returns (parse exUni false [b!"br"] b!"<p><br>x</br></p>") (fun roots =>
    roots.map (fun n => (n.stop, n.children.map (fun m => (m.closed, m.stop)))) =
      [(17, [(true, 7)])]) = true := by decide +kernel

/-! ### C20 -/

/-- C20: whatever a printed document parses to is exactly the printed tree: same shape,
tags, offsets, attributes and values, all nodes closed. -/
theorem C20_parse_inverts_print (u : Uni) (cs : Bool) (void : List Str) (items : List Item)
    (roots : List Node) (hl : AllLegal void items)
    (h : parse u cs void (printAll items) = .ok roots) : roots = nodesAll 0 items :=
  parse_print hl h

/-- C20, with success: an ASCII printed document is parsed, to the printed tree. -/
theorem C20_ascii_round_trip (u : Uni) (cs : Bool) (void : List Str) (items : List Item)
    (hl : AllLegal void items) (ha : isAscii (printAll items)) :
    parse u cs void (printAll items) = .ok (nodesAll 0 items) := by
  obtain ⟨roots, h⟩ := C11_ascii_never_panics u cs void _ ha
  rw [h, parse_print hl h]

/-- C20, with success, for every UTF-8 text: whatever characters the texts, comments and values contain, a printed
document is parsed, to the printed tree. -/
theorem C20_utf8_round_trip (u : Uni) (cs : Bool) (void : List Str) (items : List Item)
    (cps : List Nat) (hl : AllLegal void items) (hu : Utf8 cps (printAll items)) :
    parse u cs void (printAll items) = .ok (nodesAll 0 items) := by
  obtain ⟨roots, h⟩ := parse_print_ok (u := u) (cs := cs) hl hu
  rw [h, parse_print hl h]

/-- An abstract document for the examples. -/
def exItems : List Item :=
  [.elem ⟨b!"Div", [⟨b!" ", b!"id", some b!"\"x>y\""⟩, ⟨b!"\n  ", b!"@on", none⟩], []⟩
    [.text b!"hi", .comment b!" <p> ", .void ⟨b!"br", [], b!" "⟩, .text b!" a", .text b!"b ",
     .elem ⟨b!"p-1", [], []⟩ [.selfClosed ⟨b!"img", [⟨b!" ", b!"src", some b!"a/b"⟩], b!" "⟩] b!"\n",
     .elem ⟨b!"script", [], []⟩ [.text b!"if (a<b) {}"] [],
     .elem ⟨b!"script", [⟨b!" ", b!"type", some b!"'x'"⟩], []⟩ [.elem ⟨b!"b", [], []⟩ [] []] []] [],
   .doctype b!"DOCTYPE" b!" x", .text b!"\n"]

theorem exTagName {n : Str} (h1 : (match n with | b :: _ => decide (alnum b) | [] => false) = true)
    (h2 : n.all (fun b => decide (alnum b ∨ b = 45)) = true) : TagName n := by
  refine ⟨?_, ?_⟩
  · cases n with
    | nil => simp at h1
    | cons b t => exact ⟨b, t, rfl, .inl (by simpa using h1)⟩
  · intro b hb
    have := List.all_eq_true.1 h2 b hb
    simp at this
    rcases this with h | h
    · exact .inl h
    · exact .inr (.inr (.inr (.inl h)))

theorem exName {n : Str} (h1 : (match n with | b :: _ => decide (alnum b) | [] => false) = true)
    (h2 : n.all (fun b => decide (alnum b ∨ b = 45)) = true) (h3 : asciiLower n ≠ b!"script")
    (h4 : asciiLower n ≠ b!"style") : LegalName n := ⟨exTagName h1 h2, h3, h4⟩

theorem exNotOccurs {w s : Str} (hw : w ≠ [])
    (h : (List.range (s.length + 1)).all (fun i => !w.isPrefixOf (s.drop i)) = true) : ¬ Occurs w s := fun ho => by
  obtain ⟨i, hl, hi⟩ := occurs_prefix ho (by cases w <;> simp_all)
  have := List.all_eq_true.1 h i (List.mem_range.2 (by omega))
  rw [Bool.not_eq_true', hi] at this
  cases this

theorem exTagLegal {name gap : Str} (h : gap.all (fun b => decide (Space b)) = true) : (TagText.mk name [] gap).Legal :=
  ⟨⟨by simp, by simp⟩, by simpa [Spaces] using h⟩

theorem exItems_legal : AllLegal [b!"br"] exItems := by
  simp only [exItems, AllLegal, Item.Legal]
  refine ⟨⟨⟨⟨?_, by decide⟩, by decide⟩, by decide, by decide, .inl ⟨.inl (exName (by decide) (by decide) (by decide) (by decide)),
    by decide, exNotOccurs (by decide) (by decide), ⟨exTagLegal (by decide), exName (by decide) (by decide) (by decide) (by decide), by decide⟩,
    by decide, by decide,
    ⟨exTagLegal (by decide), by decide, by decide, .inl ⟨.inl (exName (by decide) (by decide) (by decide) (by decide)),
      ⟨⟨⟨?_, by decide⟩, by decide⟩, exTagName (by decide) (by decide), .inl (by decide)⟩, trivial⟩⟩,
    ⟨exTagLegal (by decide), by decide, by decide, .inr ⟨_, rfl, .inr ⟨rfl, by simp, exNotOccurs (by decide) (by decide),
      exNotOccurs (by decide) (by decide)⟩⟩⟩,
    ⟨⟨⟨?_, by decide⟩, by decide⟩, by decide, by decide, .inl ⟨.inr ⟨rfl, ⟨_, List.mem_singleton.2 rfl, rfl⟩, ?_⟩,
      ⟨exTagLegal (by decide), by decide, by decide, .inl ⟨.inl (exName (by decide) (by decide) (by decide) (by decide)), trivial⟩⟩,
      trivial⟩⟩, trivial⟩⟩,
    by decide, by decide, trivial⟩
  · intro a ha
    simp at ha
    rcases ha with rfl | rfl
    · refine ⟨by decide, by decide, by simp only [AttributeName]; decide, by decide, fun w hw => .inl ⟨34, b!"x>y", by decide, by decide, ?_⟩⟩
      cases hw; rfl
    · exact ⟨by decide, by decide, by simp only [AttributeName]; decide, by decide, fun w hw => by cases hw⟩
  · intro a ha
    simp at ha
    subst ha
    refine ⟨by decide, by decide, by simp only [AttributeName]; decide, by decide, fun w hw => .inr (.inl ?_)⟩
    cases hw
    exact ⟨by decide, by decide⟩
  · intro a ha
    simp at ha
    subst ha
    refine ⟨by decide, by decide, by simp only [AttributeName]; decide, by decide, fun w hw => .inl ⟨39, b!"x", by decide, by decide, ?_⟩⟩
    cases hw; rfl
  · intro a ha _
    simp at ha
    subst ha
    exact ⟨_, rfl, by decide, by decide, by decide⟩
example : printAll exItems = b!"<Div id=\"x>y\"\n  @on>hi<!-- <p> --><br > ab <p-1><img src=a/b /></p-1\n><script>if (a<b) {}</script><script type='x'><b></b></script></Div><!DOCTYPE x>\n" := by
  decide
example : (nodesAll 0 exItems).map (fun n => (n.tag, n.start, n.stop, n.attributes.map (·.1), n.children.map (·.tag))) =
    [(some b!"Div", 0, 137, [b!"id", b!"@on"], [some b!"br", some b!"p-1", some b!"script", some b!"script"])] := by
  krfl

/-- A printed document with no-break spaces and a last character that is not ASCII. -/
theorem exOddItems_legal : AllLegal [] [.elem ⟨b!"p", [⟨b!" ", b!"type", some b!"\"\u00a0\u00e9\""⟩], []⟩ [.text b!"\u00a0"] [], .text b!"\u00e9"] ∧
    Utf8 [60, 112, 32, 116, 121, 112, 101, 61, 34, 160, 233, 34, 62, 160, 60, 47, 112, 62, 233]
      (printAll [.elem ⟨b!"p", [⟨b!" ", b!"type", some b!"\"\u00a0\u00e9\""⟩], []⟩ [.text b!"\u00a0"] [], .text b!"\u00e9"]) := by
  refine ⟨?_, by decide, by decide⟩
  simp only [AllLegal, Item.Legal, TagText.Legal, LegalAttrs, and_true]
  refine ⟨⟨⟨⟨?_, by decide⟩, by decide⟩, by decide, by decide, .inl ⟨.inl (exName (by decide) (by decide) (by decide) (by decide)), by decide⟩⟩, by decide⟩
  intro a ha
  cases List.mem_singleton.1 ha
  refine ⟨by decide, by decide, ⟨by decide, by decide⟩, by decide, ?_⟩
  rintro w h
  cases h
  exact .inl ⟨34, b!"\u00a0\u00e9", .inl rfl, by decide, rfl⟩

/-! ### C51 -/

/-- C51: every end tag of the text either is the end tag of an element of the document, or
no element in whose content it lies has its name (it is stray). -/
theorem C51_end_tags_close_their_elements (u : Uni) (cs : Bool) (void : List Str) (src : Str)
    (roots : List Node) (h : parse u cs void src = .ok roots) :
    ∃ ts, tokens (parserCfg u cs src) (.new 0 .WithinContent) = .ok ts ∧
      ∀ e name, (e, name) ∈ endTags src ts →
        (∃ n, InForest roots n ∧ n.endTagStart = some e) ∨
        (∀ n, InForest roots n → ∀ s, n.startTagEnd = some s → s ≤ e → e < contentEnd n →
          ¬ SameName u cs n.tag name) := by
  unfold parse at h
  obtain ⟨p, h1, h⟩ := bind_ok h
  cases h
  obtain ⟨ts, ht⟩ := parseLoop_tokens h1
  refine ⟨ts, by rw [← parse_tokens]; exact ht, fun e name hx => ?_⟩
  have hi : EndInv (parserCfg u cs src) (.init src.length) (.new 0 .WithinContent) ([], none, none) :=
    ⟨rfl, rfl, rfl, by simp, by simp⟩
  have hg := finishAll_end (len := src.length)
    (parseLoop_end (c := parserCfg u cs src) hi PInv.init h1 ht _ hx)
  rcases hg with ⟨q, hq, n, h2, h3⟩ | hg
  · rw [List.mem_singleton] at hq
    subst hq
    exact .inl ⟨n, h2, h3⟩
  · right
    intro n hn
    have h4 := hg _ (List.mem_singleton.2 rfl)
    obtain ⟨h5, _⟩ := deep_forest h4.2 hn
    exact h5

example : returns (tokens (exCfg b!"<a><b></a ></c>") (.new 0 .WithinContent)) (fun ts =>
    endTags b!"<a><b></a ></c>" ts = [(6, some b!"a"), (11, some b!"c")]) = true := by decide +kernel
example : returns (parse exUni false [] b!"<a><b></a ></c>") (fun roots =>
    roots.map (·.endTagStart) = [some 6]) = true := by decide +kernel

end Html.Props
