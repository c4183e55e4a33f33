import Verif.Proof.Query
import Verif.Props.Parser

/-! # Properties of the document queries (C21-C25) -/

namespace Html.Props
open Html Spec

/-! ### C21 -/

/-- C21: `find_node_at` finds nothing iff no node of the document covers the offset. -/
theorem C21_none_iff (u : Uni) (cs : Bool) (void : List Str) (src : Str) (roots : List Node)
    (o : Nat) (h : parse u cs void src = .ok roots) :
    findNodeAt roots o = none ↔ ∀ n, InForest roots n → ¬ Covers n o := by
  have := findNodeAt_spec (o := o) (parse_nest h)
  constructor
  · intro hn; rw [hn] at this; exact this
  · intro hn
    cases hf : findNodeAt roots o with
    | none => rfl
    | some x =>
      obtain ⟨r, ps⟩ := x
      rw [hf] at this
      exact absurd this.covers (hn r (chain_inForest this.chain).1)

/-- C21: the node found covers the offset, and it is the innermost one: all other nodes that
cover the offset are its ancestors, and none of its descendants does. -/
theorem C21_innermost (u : Uni) (cs : Bool) (void : List Str) (src : Str) (roots : List Node)
    (o : Nat) (n : Node) (ps : List Node) (h : parse u cs void src = .ok roots)
    (hf : findNodeAt roots o = some (n, ps)) :
    InForest roots n ∧ Covers n o ∧
    (∀ m, InForest roots m → Covers m o → m = n ∨ m ∈ ps) ∧
    (∀ m, InForest n.children m → ¬ Covers m o) := by
  have hn := parse_nest h
  have hs := findNodeAt_spec (o := o) hn
  rw [hf] at hs
  have hin := (chain_inForest hs.chain).1
  refine ⟨hin, hs.covers, fun m hm hc => (hs.all m hm hc).symm, fun m hm hc => ?_⟩
  exact findNodeAt_leaf hn hf m hm hc

example : returns (parse exUni false [b!"br"] exText) (fun roots =>
    (findNodeAt roots 18).map (fun x => (x.1.tag, x.2.map (·.tag))) =
      some (some b!"br", [some b!"a", some b!"b"])) = true := by decide +kernel
example : returns (parse exUni false [b!"br"] exText) (fun roots =>
    (findNodeAt roots 33).isNone) = true := by decide +kernel

/-! ### C22 -/

/-- C22: the second result of `find_node_at` is the chain of ancestors of the node, outermost
first. -/
theorem C22_ancestor_chain (u : Uni) (cs : Bool) (void : List Str) (src : Str) (roots : List Node)
    (o : Nat) (n : Node) (ps : List Node) (h : parse u cs void src = .ok roots)
    (hf : findNodeAt roots o = some (n, ps)) :
    Chain roots ps n ∧ ∀ p ∈ ps, Covers p o := by
  have hn := parse_nest h
  have hs := findNodeAt_spec (o := o) hn
  rw [hf] at hs
  exact ⟨hs.chain, chain_covers hn.deep hs.chain hs.covers⟩

/-! ### C23 -/

/-- C23: `find_node_before` finds nothing iff no root (equivalently: no node) starts before
the offset. -/
theorem C23_none_iff (u : Uni) (cs : Bool) (void : List Str) (src : Str) (roots : List Node)
    (o : Nat) (h : parse u cs void src = .ok roots) :
    findNodeBefore roots o = none ↔ ∀ n, InForest roots n → o ≤ n.start := by
  have hn := parse_nest h
  have := findNodeBefore_spec (o := o) hn
  constructor
  · intro hx m hm
    rw [hx] at this
    obtain ⟨d, hd, rfl | hm⟩ := inForest_cases hm
    · exact this _ hd
    · have := this d hd
      have := inForest_inside (hn.deep d hd) hm
      omega
  · intro hx
    cases hf : findNodeBefore roots o with
    | none => rfl
    | some x =>
      obtain ⟨r, ps⟩ := x
      rw [hf] at this
      have h1 := hx r (chain_inForest this.chain).1
      have h2 := this.start
      omega

/-- C23: the node found starts before the offset; its ancestors are reported; every other
node that starts before the offset is an ancestor, ends before the found node starts, or
is a descendant of it.  If the offset is inside the found node, no child starts before
it; otherwise the found node has ended, and not with its last child (so the descendants
are hidden behind its end tag). -/
theorem C23_last_node_before (u : Uni) (cs : Bool) (void : List Str) (src : Str) (roots : List Node)
    (o : Nat) (n : Node) (ps : List Node) (h : parse u cs void src = .ok roots)
    (hf : findNodeBefore roots o = some (n, ps)) :
    n.start < o ∧ Chain roots ps n ∧
    (∀ m, InForest roots m → m.start < o →
      m = n ∨ m ∈ ps ∨ m.stop ≤ n.start ∨ InForest n.children m) ∧
    ((o < n.stop ∧ ∀ d ∈ n.children, o ≤ d.start) ∨ (n.stop ≤ o ∧ ¬ EndsWithLastChild n)) ∧
    (∀ p ∈ ps, o < p.stop ∨ EndsWithLastChild p) := by
  have hs := findNodeBefore_spec (o := o) (parse_nest h)
  rw [hf] at hs
  refine ⟨hs.start, hs.chain, fun m hm hc => ?_, hs.own, hs.up⟩
  rcases hs.all m hm hc with h | h | h | h
  · exact .inr (.inl h)
  · exact .inr (.inr (.inl h))
  · exact .inl h
  · exact .inr (.inr (.inr h))

example : returns (parse exUni false [b!"br"] exText) (fun roots =>
    (findNodeBefore roots 28).map (fun x => (x.1.tag, x.2.map (·.tag))) =
      some (some b!"c", [some b!"a"])) = true := by decide +kernel

/-! ### C24 -/

/-- C24: `find_root_at` finds the first root that does not end before the offset. -/
theorem C24_first_root (roots : List Node) (o : Nat) :
    (∀ r, findRootAt roots o = some r ↔
      ∃ pre post, roots = pre ++ r :: post ∧ o ≤ r.stop ∧ ∀ q ∈ pre, q.stop < o) ∧
    (findRootAt roots o = none ↔ ∀ r ∈ roots, r.stop < o) := by
  constructor
  · intro r
    unfold findRootAt
    rw [List.find?_eq_some_iff_append]
    constructor
    · rintro ⟨h1, pre, post, h2, h3⟩
      exact ⟨pre, post, h2, by simpa using h1, fun q hq => by simpa using h3 q hq⟩
    · rintro ⟨pre, post, h2, h1, h3⟩
      exact ⟨by simpa using h1, pre, post, h2, fun q hq => by simpa using h3 q hq⟩
  · unfold findRootAt
    rw [List.find?_eq_none]
    simp

/-- C24: in a parsed document, if a root covers the offset and no root ends exactly at it, that
root is found. -/
theorem C24_covering_root (u : Uni) (cs : Bool) (void : List Str) (src : Str) (roots : List Node)
    (o : Nat) (r : Node) (h : parse u cs void src = .ok roots) (hr : r ∈ roots) (hc : Covers r o)
    (hb : ∀ q ∈ roots, q.stop ≠ o) : findRootAt roots o = some r := by
  obtain ⟨pre, post, rfl⟩ := List.append_of_mem hr
  refine ((C24_first_root _ _).1 r).2 ⟨pre, post, rfl, ?_, fun q hq => ?_⟩
  · unfold Covers at hc; omega
  · obtain ⟨m, h1, h2, _⟩ := (parse_kids h).sib.append
    have h3 := h1.mem hq
    have h4 := hb q (by simp [hq])
    unfold Covers at hc; omega

example : returns (parse exUni false [b!"br"] exText) (fun roots =>
    (findRootAt roots 32).map (·.tag) = some (some b!"a") ∧
    (findRootAt roots 33).map (·.tag) = some (some b!"d")) = true := by decide +kernel

/-! ### C25 -/

/-- C25: the classification of an offset panics exactly for an offset inside a node that has
no tag name, or behind the name inside a node whose start tag is cut. -/
theorem C25_panics_iff (u : Uni) (cs : Bool) (void : List Str) (src : Str) (roots : List Node)
    (n : Node) (o : Nat) (h : parse u cs void src = .ok roots) (hn : InForest roots n) :
    (∃ e, n.findTokenType o = .error e) ↔
      Covers n o ∧ (n.tag = none ∨
        ∃ t, n.tag = some t ∧ n.startTagEnd = none ∧ n.start + 1 + t.length ≤ o) := by
  have hw := C14_offsets_point_at_brackets u cs void src roots n h hn
  have hlt := (parse_done h hn).lt
  unfold Node.findTokenType Covers
  by_cases hc : n.start > o ∨ n.stop ≤ o
  · simp only [hc, if_true, pure, Except.pure]
    constructor
    · rintro ⟨e, he⟩; cases he
    · rintro ⟨_, _⟩; omega
  · have hc' : n.start ≤ o ∧ o < n.stop := by omega
    simp only [hc, if_false]
    cases ht : n.tag with
    | none => simp [unwrap, bind, Except.bind, hc']
    | some t =>
      by_cases h1 : n.start = o
      · simp [h1, unwrap, bind, Except.bind, pure, Except.pure]
        intros; omega
      · by_cases h2 : o < n.start + 1 + t.length
        · simp [h1, h2, unwrap, bind, Except.bind, pure, Except.pure]
        · cases hs : n.startTagEnd with
          | none => simp [h1, h2, unwrap, bind, Except.bind, pure, Except.pure, hc']; omega
          | some s =>
            have h3 := hw.2.1 s hs
            have h4 : n.start + 1 ≤ s - 1 := start_close_ne hw.1 h3.2.2 h3.1
            simp only [h1, h2, unwrap, bind, Except.bind, pure, Except.pure, if_false]
            have e1 : subU n.stop 1 = .ok (n.stop - 1) := by simp [subU]; omega
            have e2 : subU n.stop 2 = .ok (n.stop - 2) := by simp [subU]; omega
            have e3 : subU s 1 = .ok (s - 1) := by simp [subU]; omega
            have e4 : subU s 2 = .ok (s - 2) := by simp [subU]; omega
            simp only [e1, e2, e3, e4]
            constructor
            · rintro ⟨e, he⟩
              exfalso
              repeat' split at he
              all_goals cases he
            · rintro ⟨_, h | ⟨_, _, h, _⟩⟩ <;> cases h

/-- C25: the classification of the offsets of a node with a tag whose start tag is complete and
which has an end tag, with nothing between `<` and the name: exactly the right offsets are
reported as `<`, name, content, `</` and end tag. -/
theorem C25_element_with_end_tag (u : Uni) (cs : Bool) (void : List Str) (src : Str)
    (roots : List Node) (n : Node) (o : Nat) (t : Str) (s e : Nat)
    (h : parse u cs void src = .ok roots) (hn : InForest roots n) (ht : n.tag = some t)
    (hs : n.startTagEnd = some s) (he : n.endTagStart = some e) :
    ∃ r, n.findTokenType o = .ok r ∧
      (r = .StartTagOpen ↔ o = n.start) ∧
      (r = .StartTag ↔ n.start + 1 ≤ o ∧ o < n.start + 1 + t.length) ∧
      (r = .Content ↔ s ≤ o ∧ o < e) ∧
      (r = .EndTagOpen ↔ o = e ∨ o = e + 1) ∧
      (r = .EndTag ↔ e + 2 ≤ o ∧ o + 1 < n.stop) ∧
      (r = .EndTagClose ↔ e + 2 ≤ o ∧ o + 1 = n.stop) ∧
      (r = .StartTagClose ↔ n.start + 1 + t.length ≤ o ∧ o + 1 = s) ∧
      (r = .Unknown ↔ ¬ Covers n o ∨ (n.start + 1 + t.length ≤ o ∧ o + 1 < s)) ∧
      r ≠ .StartTagSelfClose := by
  have hw := C14_offsets_point_at_brackets u cs void src roots n h hn
  have hd := parse_done h hn
  have hlt := hd.lt
  obtain ⟨h1, h2, h3⟩ := hw.2.1 s hs
  obtain ⟨h4, h5, s', h6, h7, h8⟩ := hw.2.2.1 e he
  rw [hs] at h6; cases h6
  have hname := hd.name.spec
  rw [ht, hs] at hname
  obtain ⟨w, _, _, hel, _, h9⟩ := hname
  have hpos : 0 < t.length := List.length_pos_iff.2 hel.1
  simp only [Option.getD_some] at h9
  have h10 : n.start + 1 + t.length ≤ s := by omega
  have hsn : s ≠ n.stop := by omega
  unfold Node.findTokenType Covers
  simp only [ht, hs, he, unwrap, bind, Except.bind, pure, Except.pure]
  have e1 : subU n.stop 1 = .ok (n.stop - 1) := by simp [subU]; omega
  have e3 : subU s 1 = .ok (s - 1) := by simp [subU]; omega
  simp only [e1, e3, hsn, if_false]
  have hname_lt : n.start + 1 + t.length < s := by
    exact name_before_close hd ht hs
  repeat' split
  all_goals refine ⟨_, rfl, ?_⟩
  all_goals simp only [reduceCtorEq, false_iff, true_iff, ne_eq, not_false_eq_true, and_true, not_true]
  all_goals omega

/-- C25: the offsets reported as `<`, `</` point at these characters, those reported as `>`
of the end tag point at `>` or at the last byte of an end tag that is cut by `<`. -/
theorem C25_source (u : Uni) (cs : Bool) (void : List Str) (src : Str)
    (roots : List Node) (n : Node) (o : Nat) (t : Str) (s e : Nat)
    (h : parse u cs void src = .ok roots) (hn : InForest roots n) (ht : n.tag = some t)
    (hs : n.startTagEnd = some s) (he : n.endTagStart = some e) :
    (n.findTokenType o = .ok .StartTagOpen → At src o b!"<") ∧
    (n.findTokenType o = .ok .StartTag → (∀ b, src[n.start + 1]? = some b → ¬ Space b) →
      src[o]? = t[o - (n.start + 1)]?) ∧
    (n.findTokenType o = .ok .EndTagOpen → (At src o b!"</" ∨ At src (o - 1) b!"</")) ∧
    (n.findTokenType o = .ok .StartTagClose → At src o b!">") ∧
    (n.findTokenType o = .ok .EndTagClose → At src o b!">" ∨ At src (o + 1) b!"<") := by
  obtain ⟨r, hr, c1, c2, c3, c4, c5, c6, c7, c8, c9⟩ :=
    C25_element_with_end_tag u cs void src roots n o t s e h hn ht hs he
  have hw := C14_offsets_point_at_brackets u cs void src roots n h hn
  rw [hr]
  refine ⟨fun hx => ?_, fun hx hsp => ?_, fun hx => ?_, fun hx => ?_, fun hx => ?_⟩ <;> cases hx
  · have := c1.1 rfl; subst this; exact hw.1
  · obtain ⟨c2a, c2b⟩ := c2.1 rfl
    obtain ⟨⟨x, hx⟩, _⟩ := C15_tag_right_behind_bracket u cs void src roots n t h hn ht hsp
    have h1 : (src.drop (n.start + 1))[o - (n.start + 1)]? = src[o]? := by
      rw [List.getElem?_drop]; congr 1; omega
    rw [← h1, hx, List.getElem?_append_left (by omega)]
  · rcases c4.1 rfl with h1 | h1
    · left; rw [h1]; exact (hw.2.2.1 e he).1
    · right; rw [h1]; exact (hw.2.2.1 e he).1
  · obtain ⟨_, h1⟩ := c7.1 rfl
    have h2 := (hw.2.1 s hs).2.2
    have : s - 1 = o := by omega
    rwa [this] at h2
  · obtain ⟨_, h1⟩ := c6.1 rfl
    have hcl := (C17_closed_iff u cs void src roots n h hn).1 (by rw [he]; simp)
    rcases hw.2.2.2 hcl with h2 | h2
    · left
      have : n.stop - 1 = o := by omega
      rwa [this] at h2
    · right; rw [h1]; exact h2

/-- C25: an offset inside a child of an element with an end tag is reported as content. -/
theorem C25_children_are_content (u : Uni) (cs : Bool) (void : List Str) (src : Str)
    (roots : List Node) (n d : Node) (o : Nat) (t : Str) (s e : Nat)
    (h : parse u cs void src = .ok roots) (hn : InForest roots n) (ht : n.tag = some t)
    (hs : n.startTagEnd = some s) (he : n.endTagStart = some e) (hd : d ∈ n.children)
    (hc : Covers d o) : n.findTokenType o = .ok .Content := by
  obtain ⟨r, hr, _, _, c3, _⟩ :=
    C25_element_with_end_tag u cs void src roots n o t s e h hn ht hs he
  obtain ⟨e', h1, _, h2, _⟩ := (C12_well_nested u cs void src roots n h hn).2.2
    (by rintro hx; rw [hx] at hd; cases hd)
  rw [hs] at h1; cases h1
  have := h2.mem hd
  simp only [contentEnd, he, Option.getD_some] at this
  rw [hr, c3.2 (by unfold Covers at hc; omega)]

/-- C25, its limits: the content of an element that was left open is "unknown", and the blank
in a void element `<br >` is part of a "self close" token. -/
theorem C25_limits (u : Uni) :
    (∃ n, parse u false [] b!"<p>text" = .ok [n] ∧ n.findTokenType 5 = .ok .Unknown) ∧
    (∃ n, parse u false [b!"br"] b!"<br >" = .ok [n] ∧ n.findTokenType 3 = .ok .StartTagSelfClose) :=
  ⟨⟨⟨some b!"p", 0, 7, [], false, some 3, none, []⟩, by krfl, by rfl⟩,
   ⟨⟨some b!"br", 0, 5, [], true, some 5, none, []⟩, by krfl, by rfl⟩⟩

example : returns (parse exUni false [] b!"<p x>a<b></b></p >") (fun roots =>
    roots.flatMap (fun n => [0, 1, 3, 4, 5, 8, 13, 15, 16, 17].map (fun o =>
      match n.findTokenType o with | .ok t => t | .error _ => .EOS)) =
    [.StartTagOpen, .StartTag, .Unknown, .StartTagClose, .Content, .Content, .EndTagOpen, .EndTag,
     .EndTag, .EndTagClose]) = true := by decide +kernel

end Html.Props
