import Verif.Proof.TagServices
import Verif.Proof.Highlight
import Verif.Props.Document
import Verif.Props.TextDocument

/-!
# Properties of the services on tag names (C26 - C30)

`d` is the text document, `roots` the document parsed from its text.
-/

namespace Html.Props
open Html Spec

/-! ### C26 -/

/-- C26: linked editing returns ranges iff the cursor is on one of the two tag names (taken to
be right behind `<` and `</`) of an element with an end tag, and then the ranges of these
two names. -/
theorem C26_ranges_iff (u : Uni) (cs : Bool) (void : List Str) (d : TextDoc) (roots : List Node)
    (p : Pos) (rs : List Range) (h : parse u cs void d.text = .ok roots) :
    findLinkedEditingRanges d p roots = some rs ↔
    ∃ n e, InForest roots n ∧ Covers n (d.offsetAt p) ∧ n.endTagStart = some e ∧
      (OnName (n.start + 1) (nameLen n) (d.offsetAt p) ∨ OnName (e + 2) (nameLen n) (d.offsetAt p)) ∧
      rs = [⟨d.posAt (n.start + 1), d.posAt (n.start + 1 + nameLen n)⟩,
        ⟨d.posAt (e + 2), d.posAt (e + 2 + nameLen n)⟩] := by
  constructor
  · intro hr
    cases hf : findNodeAt roots (d.offsetAt p) with
    | none => unfold findLinkedEditingRanges at hr; simp [hf] at hr
    | some x =>
      obtain ⟨n, ps⟩ := x
      obtain ⟨h1, h2⟩ := findNodeAt_mem h hf
      rw [linked_eq d p hf] at hr
      cases he : n.endTagStart with
      | none => rw [he] at hr; cases hr
      | some e =>
        rw [he, Option.bind_some] at hr
        split at hr
        · rename_i hc
          cases hr
          exact ⟨n, e, h1, h2, he, hc, rfl⟩
        · cases hr
  · rintro ⟨n, e, h1, h2, h3, h4, rfl⟩
    obtain ⟨ps, hf⟩ := findNodeAt_name h h1 h2 (h4.imp id fun hx => ⟨e, h3, hx⟩)
    rw [linked_eq d p hf, h3, Option.bind_some]
    exact if_pos h4

/-- C26: if no blank follows the `<` and the `</` then the first range starts at the tag name,
and the second at the name of the end tag, which is the same name; the ranges do not overlap. -/
theorem C26_ranges_are_names (u : Uni) (cs : Bool) (void : List Str) (src : Str) (roots : List Node)
    (n : Node) (t : Str) (e : Nat) (h : parse u cs void src = .ok roots) (hn : InForest roots n)
    (ht : n.tag = some t) (he : n.endTagStart = some e)
    (hb : NoBlank src (n.start + 1)) (hb' : NoBlank src (e + 2)) :
    At src (n.start + 1) t ∧ n.start + 1 + t.length < e + 2 ∧
    ∃ t', At src (e + 2) t' ∧ SameName u cs (some t) (some t') ∧
      (cs = true ∨ isAscii src → t'.length = t.length ∧ e + 2 + t.length ≤ n.stop ∧
        if cs then t' = t else asciiLower t' = asciiLower t) := by
  have h1 := start_name h hn ht hb
  obtain ⟨t', h2, h3, h4, _⟩ := end_name h hn ht he hb'
  obtain ⟨_, _, s, hs, _, hse⟩ := (C14_offsets_point_at_brackets u cs void src roots n h hn).2.2.1 e he
  have h5 := nameLen_before_close h hn hs
  simp only [nameLen, ht, Option.getD_some] at h5
  refine ⟨h1, by omega, t', h3, h2, fun ha => ?_⟩
  obtain ⟨h6, h7⟩ := sameName_len h2 (ha.imp id fun ha =>
    ⟨fun b hb => ha b (at_mem h1 b hb), fun b hb => ha b (at_mem h3 b hb)⟩)
  exact ⟨h6, by omega, h7⟩

/-- C26, with a lawful text document: the two ranges cut out the two tag names, which are equal (up to case if the parser
ignores case), and one of them contains the cursor; if the element has a name and no blanks are in front of it.  If case is
ignored, the names have to be ASCII; the rest of the text is arbitrary. -/
theorem C26_texts (u : Uni) (cs : Bool) (void : List Str) (d : TextDoc) (roots : List Node)
    (p : Pos) (rs : List Range) (hd : Lawful d) (h : parse u cs void d.text = .ok roots) (hp : PlainNames cs d.text roots)
    (hr : findLinkedEditingRanges d p roots = some rs) :
    ∃ n e a b, InForest roots n ∧ n.endTagStart = some e ∧ rs = [a, b] ∧
      ∀ t, n.tag = some t → NoBlank d.text (n.start + 1) → NoBlank d.text (e + 2) →
        bytesIn d.text (d.offsetAt a.start) (d.offsetAt a.stop) = t ∧
        (∃ t', bytesIn d.text (d.offsetAt b.start) (d.offsetAt b.stop) = t' ∧
          if cs then t' = t else asciiLower t' = asciiLower t) ∧
        d.offsetAt a.stop < d.offsetAt b.start ∧
        ((d.offsetAt a.start ≤ d.offsetAt p ∧ d.offsetAt p ≤ d.offsetAt a.stop) ∨
         (d.offsetAt b.start ≤ d.offsetAt p ∧ d.offsetAt p ≤ d.offsetAt b.stop)) := by
  obtain ⟨n, e, h1, h2, h3, h4, rfl⟩ := (C26_ranges_iff u cs void d roots p rs h).1 hr
  refine ⟨n, e, _, _, h1, h3, rfl, fun t ht h6 h7 => ?_⟩
  have hl : nameLen n = t.length := by simp [nameLen, ht]
  obtain ⟨_, h9, _⟩ := C26_ranges_are_names u cs void d.text roots n t e h h1 ht h3 h6 h7
  obtain ⟨a1, a2, a3, a4⟩ := start_bounds h h1 ht h6
  obtain ⟨t', b0, b1, b2, b3, b4, b5, _⟩ := end_bounds h h1 ht h3 h7
  obtain ⟨h11, h12, _⟩ := plain_names hp h1 ht h3 b0 b1
  rw [h11] at b4 b5
  simp only [hl] at h4 ⊢
  rw [hd.roundTrip _ (by omega) a2, hd.roundTrip _ a4 a3, hd.roundTrip _ (by omega) b3, hd.roundTrip _ b5 b4]
  refine ⟨at_bytesIn a1, ⟨t', ?_, h12⟩, h9, h4⟩
  rw [← h11]
  exact at_bytesIn b2

/-- In the tables of this example the lower case of the Kelvin sign is `k`, as in Unicode. -/
def kelvinUni : Uni := ⟨fun _ => true, fun s => if s = b!"\u212a" then b!"k" else s⟩

/-- C26, its limits: the name of the end tag is taken to be as long as that of the start tag.  The Kelvin sign (three bytes)
and `k` are the same name if case is ignored, and the second range goes over the `>` into the text behind it. -/
theorem C26_length_limit :
    ∃ roots, parse kelvinUni false [] b!"<\u212a></k>xyz" = .ok roots ∧
      findLinkedEditingRanges (.ref b!"<\u212a></k>xyz") ⟨0, 1⟩ roots = some [⟨⟨0, 1⟩, ⟨0, 2⟩⟩, ⟨⟨0, 5⟩, ⟨0, 8⟩⟩] ∧
      bytesIn b!"<\u212a></k>xyz" 7 10 = b!"k>x" := by
  refine ⟨[⟨some b!"\u212a", 0, 9, [], true, some 5, some 5, []⟩], ?_, by decide +kernel, by decide +kernel⟩
  krfl

/-- C26, its limits: with blanks in front of the names the ranges are shifted (they contain a
blank and not the whole name), and at the end of the name there are no ranges. -/
theorem C26_blank_limit (u : Uni) (cs : Bool) :
    ∃ roots, parse u cs [] b!"< div></ div>" = .ok roots ∧
      findLinkedEditingRanges (.ref b!"< div></ div>") ⟨0, 3⟩ roots =
        some [⟨⟨0, 1⟩, ⟨0, 4⟩⟩, ⟨⟨0, 8⟩, ⟨0, 11⟩⟩] ∧
      bytesIn b!"< div></ div>" 1 4 = b!" di" ∧
      findLinkedEditingRanges (.ref b!"< div></ div>") ⟨0, 5⟩ roots = none := by
  refine ⟨[⟨some b!"div", 0, 13, [], true, some 6, some 6, []⟩], ?_, by decide, by decide, by decide⟩
  cases cs <;> krfl

example : returns (parse exUni false [b!"br"] b!"<p>\n<Div a>x</DIV></p>") (fun roots =>
    findLinkedEditingRanges (.ref b!"<p>\n<Div a>x</DIV></p>") ⟨1, 11⟩ roots =
      some [⟨⟨1, 1⟩, ⟨1, 4⟩⟩, ⟨⟨1, 10⟩, ⟨1, 13⟩⟩]) = true := by decide +kernel

/-! ### C27 -/

/-- C27: a result of matching tag position comes from an element with both tags; the offset is on
one of its two names, and the result is the position of the corresponding offset of the other
name. -/
theorem C27_position_iff (u : Uni) (cs : Bool) (void : List Str) (d : TextDoc) (roots : List Node)
    (p q : Pos) (h : parse u cs void d.text = .ok roots) :
    findMatchingTagPosition d p roots = some q ↔
    ∃ n e t, InForest roots n ∧ Covers n (d.offsetAt p) ∧ n.tag = some t ∧ n.endTagStart = some e ∧
      ∃ k, k ≤ t.length ∧
        ((d.offsetAt p = n.start + 1 + k ∧ q = d.posAt (e + 2 + k)) ∨
         (d.offsetAt p = e + 2 + k ∧ q = d.posAt (n.start + 1 + k))) := by
  have hdisj : ∀ n e t, InForest roots n → n.tag = some t → n.endTagStart = some e →
      n.start + 1 + t.length < e + 2 := by
    intro n e t hn ht he
    obtain ⟨_, _, s, hs, _, hse⟩ := (C14_offsets_point_at_brackets u cs void _ roots n h hn).2.2.1 e he
    have h5 := nameLen_before_close h hn hs
    simp only [nameLen, ht, Option.getD_some] at h5
    omega
  constructor
  · intro hr
    cases hf : findNodeAt roots (d.offsetAt p) with
    | none => unfold findMatchingTagPosition at hr; simp [hf] at hr
    | some x =>
      obtain ⟨n, ps⟩ := x
      obtain ⟨h1, h2⟩ := findNodeAt_mem h hf
      rw [matching_eq d p hf] at hr
      cases ht : n.tag with
      | none => rw [ht] at hr; cases hr
      | some t =>
        cases he : n.endTagStart with
        | none => rw [ht, he] at hr; cases hr
        | some e =>
          simp only [ht, he, Option.bind_some, nameLen, Option.getD_some] at hr
          refine ⟨n, e, t, h1, h2, ht, he, ?_⟩
          split at hr
          · rename_i hc
            cases hr
            refine ⟨d.offsetAt p - 1 - n.start, by omega, .inl ⟨by omega, ?_⟩⟩
            congr 1; omega
          · split at hr
            · rename_i hc
              cases hr
              refine ⟨d.offsetAt p - 2 - e, by omega, .inr ⟨by omega, ?_⟩⟩
              congr 1; omega
            · cases hr
  · rintro ⟨n, e, t, h1, h2, ht, he, k, hk, h4⟩
    have hl : nameLen n = t.length := by simp [nameLen, ht]
    have hdj := hdisj n e t h1 ht he
    obtain ⟨ps, hf⟩ := findNodeAt_name h h1 h2 (by
      unfold OnName; rw [hl]
      rcases h4 with h4 | h4
      · left; omega
      · right; exact ⟨e, he, by omega⟩)
    rw [matching_eq d p hf]
    simp only [ht, he, Option.bind_some, hl]
    rcases h4 with ⟨h4, rfl⟩ | ⟨h4, rfl⟩
    · rw [if_pos (by omega)]; congr 2; omega
    · rw [if_neg (by omega), if_pos (by omega)]; congr 2; omega

/-- C27: going to the matching tag position twice leads back, on ASCII texts and with a lawful
document, if the end tag is complete and its name not preceded by blanks (for a start offset at
the position `p = position_at(o)`). -/
theorem C27_involution (u : Uni) (cs : Bool) (void : List Str) (d : TextDoc) (roots : List Node)
    (o : Nat) (q : Pos) (hd : Lawful d) (ha : isAscii d.text) (ho : o ≤ d.text.length)
    (h : parse u cs void d.text = .ok roots)
    (hc : ∀ n e, InForest roots n → n.endTagStart = some e →
      NoBlank d.text (e + 2) ∧ At d.text (n.stop - 1) b!">")
    (hq : findMatchingTagPosition d (d.posAt o) roots = some q) :
    findMatchingTagPosition d q roots = some (d.posAt o) := by
  have rt : ∀ o, o ≤ d.text.length → d.offsetAt (d.posAt o) = o := fun o ho =>
    hd.roundTrip o ho (ascii_boundary ha ho)
  obtain ⟨n, e, t, h1, h2, ht, he, k, hk, h4⟩ := (C27_position_iff u cs void d roots _ q h).1 hq
  rw [rt o ho] at h2 h4
  obtain ⟨hb, hgt⟩ := hc n e h1 he
  obtain ⟨t', h5, h6, _, h7⟩ := end_name h h1 ht he hb
  have h7 := h7 hgt
  have hdone := parse_done h h1
  have hta : isAscii t := by
    obtain ⟨w, _, hat, _⟩ := ht ▸ hdone.name.spec
    exact fun b hb => ha b (at_mem hat b (by simp [hb]))
  obtain ⟨hlen, _⟩ := sameName_len h5 (.inr ⟨hta, fun b hb => ha b (at_mem h6 b hb)⟩)
  have hle := hdone.le
  simp only [parserCfg] at hle
  obtain ⟨_, _, s, hs, _, hse⟩ := (C14_offsets_point_at_brackets u cs void _ roots n h h1).2.2.1 e he
  have hns := nameLen_before_close h h1 hs
  simp only [nameLen, ht, Option.getD_some] at hns
  refine (C27_position_iff u cs void d roots q _ h).2 ⟨n, e, t, h1, ?_, ht, he, k, hk, ?_⟩
  · rcases h4 with ⟨h4, rfl⟩ | ⟨h4, rfl⟩
    · rw [rt _ (by omega)]; unfold Covers; omega
    · rw [rt _ (by omega)]; unfold Covers at h2 ⊢; omega
  · rcases h4 with ⟨h4, rfl⟩ | ⟨h4, rfl⟩
    · rw [rt _ (by omega)]; exact .inr ⟨rfl, by rw [h4]⟩
    · rw [rt _ (by omega)]; exact .inl ⟨rfl, by rw [h4]⟩

/-- C27: the same for texts that are not ASCII; no blanks are in front of the names, and if case is ignored, the names are
ASCII. -/
theorem C27_involution_unicode (u : Uni) (cs : Bool) (void : List Str) (d : TextDoc) (roots : List Node)
    (o : Nat) (q : Pos) (hd : Lawful d) (ho : isBoundary d.text o = true)
    (h : parse u cs void d.text = .ok roots) (hp : PlainNames cs d.text roots)
    (hc : ∀ n e, InForest roots n → n.endTagStart = some e →
      NoBlank d.text (n.start + 1) ∧ NoBlank d.text (e + 2) ∧ At d.text (n.stop - 1) b!">")
    (hq : findMatchingTagPosition d (d.posAt o) roots = some q) :
    findMatchingTagPosition d q roots = some (d.posAt o) := by
  obtain ⟨n, e, t, h1, h2, ht, he, k, hk, h4⟩ := (C27_position_iff u cs void d roots _ q h).1 hq
  rw [hd.roundTrip o (isBoundary_le ho) ho] at h2 h4
  obtain ⟨hb, hb', hgt⟩ := hc n e h1 he
  obtain ⟨a1, a2, a3, a4⟩ := start_bounds h h1 ht hb
  obtain ⟨t', b0, b1, b2, b3, b4, b5, b6⟩ := end_bounds h h1 ht he hb'
  have b6 := b6 hgt
  obtain ⟨h11, _, h13⟩ := plain_names hp h1 ht he b0 b1
  have hdone := parse_done h h1
  have hle := hdone.le
  simp only [parserCfg] at hle
  obtain ⟨_, _, s, hs, _, hse⟩ := (C14_offsets_point_at_brackets u cs void _ roots n h h1).2.2.1 e he
  have hns := nameLen_before_close h h1 hs
  simp only [nameLen, ht, Option.getD_some] at hns
  refine (C27_position_iff u cs void d roots q _ h).2 ⟨n, e, t, h1, ?_⟩
  rcases h4 with ⟨rfl, rfl⟩ | ⟨rfl, rfl⟩
  · have hx := names_boundary a1 b2 h11 a3 b4 hk h13 ho
    rw [hd.roundTrip _ (isBoundary_le hx) hx]
    refine ⟨?_, ht, he, k, hk, .inr ⟨rfl, rfl⟩⟩
    unfold Covers; omega
  · have hx := names_boundary b2 a1 h11.symm b4 a3 (by omega) (h13.imp Eq.symm fun x => ⟨x.2, x.1⟩) ho
    rw [hd.roundTrip _ (isBoundary_le hx) hx]
    refine ⟨?_, ht, he, k, hk, .inl ⟨rfl, rfl⟩⟩
    unfold Covers at h2 ⊢; omega

/-- The hypotheses are met by a text that is not ASCII. -/
example : returns (parse exUni true [] b!"<\u00e9p>\u00fc</\u00e9p>") (fun roots =>
    findMatchingTagPosition (.ref b!"<\u00e9p>\u00fc</\u00e9p>") ⟨0, 2⟩ roots = some ⟨0, 8⟩ ∧
    findMatchingTagPosition (.ref b!"<\u00e9p>\u00fc</\u00e9p>") ⟨0, 8⟩ roots = some ⟨0, 2⟩) = true := by
  decide +kernel

/-- C27, its limit: the end of the name of an end tag that is cut by `<` belongs to the next
element, so the way back from there fails. -/
theorem C27_cut_end_tag_limit (u : Uni) (cs : Bool) :
    ∃ roots, parse u cs [] b!"<a></a<b>" = .ok roots ∧
      findMatchingTagPosition (.ref b!"<a></a<b>") ⟨0, 2⟩ roots = some ⟨0, 6⟩ ∧
      findMatchingTagPosition (.ref b!"<a></a<b>") ⟨0, 6⟩ roots = none := by
  refine ⟨[⟨some b!"a", 0, 6, [], true, some 3, some 3, []⟩,
    ⟨some b!"b", 6, 9, [], false, some 9, none, []⟩], ?_, by decide, by decide⟩
  cases cs <;> krfl

example : returns (parse exUni false [b!"br"] b!"<p>\n<Div a>x</DIV></p>") (fun roots =>
    findMatchingTagPosition (.ref b!"<p>\n<Div a>x</DIV></p>") ⟨1, 11⟩ roots = some ⟨1, 2⟩ ∧
    findMatchingTagPosition (.ref b!"<p>\n<Div a>x</DIV></p>") ⟨1, 2⟩ roots = some ⟨1, 11⟩) = true := by
  decide +kernel

/-! ### C28 -/

/-- C28: rename returns edits iff the cursor is on a tag name of an element that has one, and
then one edit for the name in the start tag and, if there is an end tag, one behind it for the
name in the end tag, all with the new name. -/
theorem C28_edits_iff (u : Uni) (cs : Bool) (void : List Str) (d : TextDoc) (roots : List Node)
    (p : Pos) (new : Str) (es : List TextEdit) (h : parse u cs void d.text = .ok roots) :
    doRename d p new roots = some es ↔
    ∃ n t, InForest roots n ∧ Covers n (d.offsetAt p) ∧ n.tag = some t ∧
      (OnName (n.start + 1) t.length (d.offsetAt p) ∨
        ∃ e, n.endTagStart = some e ∧ OnName (e + 2) t.length (d.offsetAt p)) ∧
      es = ⟨⟨d.posAt (n.start + 1), d.posAt (n.start + 1 + t.length)⟩, new⟩ ::
        (n.endTagStart.toList.map fun e => ⟨⟨d.posAt (e + 2), d.posAt (e + 2 + t.length)⟩, new⟩) := by
  have hw : ∀ (n : Node) (o : Nat) (t : Str), isWithinTagRange n o t = true ↔
      (OnName (n.start + 1) t.length o ∨ ∃ e, n.endTagStart = some e ∧ OnName (e + 2) t.length o) := by
    intro n o t
    unfold isWithinTagRange OnName
    cases n.endTagStart <;> simp
    omega
  constructor
  · intro hr
    cases hf : findNodeAt roots (d.offsetAt p) with
    | none => unfold doRename at hr; simp [hf] at hr
    | some x =>
      obtain ⟨n, ps⟩ := x
      obtain ⟨h1, h2⟩ := findNodeAt_mem h hf
      rw [rename_eq d p new hf] at hr
      cases ht : n.tag with
      | none => rw [ht] at hr; cases hr
      | some t =>
        rw [ht, Option.bind_some] at hr
        split at hr
        · rename_i hc
          cases hr
          refine ⟨n, t, h1, h2, ht, (hw _ _ _).1 hc, ?_⟩
          cases n.endTagStart <;> rfl
        · cases hr
  · rintro ⟨n, t, h1, h2, ht, h4, rfl⟩
    have hl : nameLen n = t.length := by simp [nameLen, ht]
    obtain ⟨ps, hf⟩ := findNodeAt_name h h1 h2 (by rw [hl]; exact h4)
    rw [rename_eq d p new hf, ht, Option.bind_some, if_pos ((hw _ _ _).2 h4)]
    cases n.endTagStart <;> rfl

/-- C28, with a lawful document: every edit replaces exactly a tag name of the element under the cursor, if no blanks are in
front of the names.  If case is ignored, the names have to be ASCII; the rest of the text is arbitrary. -/
theorem C28_texts (u : Uni) (cs : Bool) (void : List Str) (d : TextDoc) (roots : List Node)
    (p : Pos) (new : Str) (es : List TextEdit) (hd : Lawful d)
    (h : parse u cs void d.text = .ok roots) (hp : PlainNames cs d.text roots) (hr : doRename d p new roots = some es) :
    ∃ n t, InForest roots n ∧ n.tag = some t ∧ es.length = (if n.endTagStart.isSome then 2 else 1) ∧
      (NoBlank d.text (n.start + 1) → (∀ e, n.endTagStart = some e → NoBlank d.text (e + 2)) →
        (∀ x ∈ es, x.newText = new ∧ ∃ t',
          bytesIn d.text (d.offsetAt x.range.start) (d.offsetAt x.range.stop) = t' ∧
          if cs then t' = t else asciiLower t' = asciiLower t) ∧
        es.Pairwise (fun x y => d.offsetAt x.range.stop < d.offsetAt y.range.start)) := by
  obtain ⟨n, t, h1, h2, ht, h4, rfl⟩ := (C28_edits_iff u cs void d roots p new es h).1 hr
  refine ⟨n, t, h1, ht, by cases n.endTagStart <;> rfl, fun hb hb' => ?_⟩
  obtain ⟨a1, a2, a3, a4⟩ := start_bounds h h1 ht hb
  have e1 : bytesIn d.text (d.offsetAt (d.posAt (n.start + 1)))
      (d.offsetAt (d.posAt (n.start + 1 + t.length))) = t := by
    rw [hd.roundTrip _ (by omega) a2, hd.roundTrip _ a4 a3]
    exact at_bytesIn a1
  have hself : if cs then t = t else asciiLower t = asciiLower t := by cases cs <;> simp
  cases he : n.endTagStart with
  | none =>
    simp only [Option.toList_none, List.map_nil, List.mem_singleton, forall_eq, List.pairwise_singleton,
      and_true]
    exact ⟨trivial, t, e1, hself⟩
  | some e =>
    obtain ⟨_, h9, _⟩ := C26_ranges_are_names u cs void d.text roots n t e h h1 ht he hb (hb' e he)
    obtain ⟨t', b0, b1, b2, b3, b4, b5, _⟩ := end_bounds h h1 ht he (hb' e he)
    obtain ⟨h11, h12, _⟩ := plain_names hp h1 ht he b0 b1
    rw [h11] at b4 b5
    constructor
    · intro x hx
      simp only [Option.toList_some, List.map_cons, List.map_nil, List.mem_cons, List.not_mem_nil,
        or_false] at hx
      rcases hx with rfl | rfl
      · exact ⟨rfl, t, e1, hself⟩
      · refine ⟨rfl, t', ?_, h12⟩
        simp only
        rw [hd.roundTrip _ (by omega) b3, hd.roundTrip _ b5 b4, ← h11]
        exact at_bytesIn b2
    · simp only [Option.toList_some, List.map_cons, List.map_nil, List.pairwise_cons, List.mem_singleton,
        forall_eq, List.not_mem_nil, false_imp_iff, implies_true, List.Pairwise.nil, and_true]
      rw [hd.roundTrip _ a4 a3, hd.roundTrip _ (by omega) b3]
      exact h9

/-- C28, its limits: as for linked editing, a name in the end tag that is shorter is not all that is replaced. -/
theorem C28_length_limit :
    ∃ roots, parse kelvinUni false [] b!"<\u212a></k>xyz" = .ok roots ∧
      doRename (.ref b!"<\u212a></k>xyz") ⟨0, 1⟩ b!"q" roots =
        some [⟨⟨⟨0, 1⟩, ⟨0, 2⟩⟩, b!"q"⟩, ⟨⟨⟨0, 5⟩, ⟨0, 8⟩⟩, b!"q"⟩] ∧
      bytesIn b!"<\u212a></k>xyz" 7 10 = b!"k>x" := by
  refine ⟨[⟨some b!"\u212a", 0, 9, [], true, some 5, some 5, []⟩], ?_, by decide +kernel, by decide +kernel⟩
  krfl

/-- The hypotheses are met by texts that are not ASCII. -/
example : returns (parse exUni false [] b!"<p>\u00fc<Div></DIV></p>") (fun roots =>
    doRename (.ref b!"<p>\u00fc<Div></DIV></p>") ⟨0, 5⟩ b!"q" roots =
      some [⟨⟨⟨0, 5⟩, ⟨0, 8⟩⟩, b!"q"⟩, ⟨⟨⟨0, 11⟩, ⟨0, 14⟩⟩, b!"q"⟩]) = true := by decide +kernel

example : returns (parse exUni false [b!"br"] b!"<p>\n<Div a>x</DIV></p>") (fun roots =>
    doRename (.ref b!"<p>\n<Div a>x</DIV></p>") ⟨1, 11⟩ b!"q" roots =
      some [⟨⟨⟨1, 1⟩, ⟨1, 4⟩⟩, b!"q"⟩, ⟨⟨⟨1, 10⟩, ⟨1, 13⟩⟩, b!"q"⟩] ∧
    doRename (.ref b!"<p>\n<Div a>x</DIV></p>") ⟨1, 6⟩ b!"q" roots = none) = true := by decide +kernel

/-! ### C30 -/

/-- The highlights of the element `n` called `t`: the places of the name in its start tag and, if
it has an end tag, in its end tag (behind any white space). -/
def NameRanges (u : Uni) (cs : Bool) (d : TextDoc) (n : Node) (t : Str) (rs : List Range) : Prop :=
  ∃ a, NameAt d.text (n.start + 1) t a ∧
    ((n.endTagStart = none ∧ rs = [⟨d.posAt a, d.posAt (a + t.length)⟩]) ∨
     ∃ e t' a', n.endTagStart = some e ∧ NameAt d.text (e + 2) t' a' ∧
      SameName u cs (some t) (some t') ∧ a + t.length < a' ∧ a' + t'.length ≤ n.stop ∧
      rs = [⟨d.posAt a, d.posAt (a + t.length)⟩, ⟨d.posAt a', d.posAt (a' + t'.length)⟩])

/-- C30: highlighting never panics on a parsed document.  The highlights of the innermost element
at the cursor are the places of its name, if the cursor is on one of them, and none otherwise. -/
theorem C30_highlights (u : Uni) (cs : Bool) (void : List Str) (d : TextDoc) (roots : List Node)
    (p : Pos) (h : parse u cs void d.text = .ok roots) :
    ∃ rs, findDocumentHighlights u cs d p roots = .ok rs ∧
      ((∀ n, InForest roots n → ¬ Covers n (d.offsetAt p)) → rs = []) ∧
      (∀ n, InForest roots n → Covers n (d.offsetAt p) →
        (∀ k ∈ n.children, ¬ Covers k (d.offsetAt p)) →
        (n.tag = none → rs = []) ∧
        ∀ t, n.tag = some t → ∃ rs', NameRanges u cs d n t rs' ∧
          ((∃ r ∈ rs', PosLe r.start p ∧ PosLe p r.stop) → rs = rs') ∧
          ((¬ ∃ r ∈ rs', PosLe r.start p ∧ PosLe p r.stop) → rs = [])) := by
  unfold findDocumentHighlights
  cases hf : findNodeAt roots (d.offsetAt p) with
  | none =>
    refine ⟨[], rfl, fun _ => rfl, fun n hn hc => ?_⟩
    exact absurd hc ((C21_none_iff u cs void _ roots _ h).1 hf n hn)
  | some x =>
    obtain ⟨n, ps⟩ := x
    obtain ⟨h1, h2⟩ := findNodeAt_mem h hf
    have huniq : ∀ m, InForest roots m → Covers m (d.offsetAt p) →
        (∀ k ∈ m.children, ¬ Covers k (d.offsetAt p)) → m = n := by
      intro m hm hc hk
      obtain ⟨ps', hf'⟩ := findNodeAt_of_covers h hm hc hk
      rw [hf] at hf'; cases hf'; rfl
    have hdone := parse_done h h1
    simp only
    cases ht : n.tag with
    | none =>
      refine ⟨[], rfl, fun _ => rfl, fun m hm hc hk => ?_⟩
      cases huniq m hm hc hk
      exact ⟨fun _ => rfl, fun t ht' => by rw [ht] at ht'; cases ht'⟩
    | some t =>
      have hname := hdone.name
      rw [ht] at hname
      obtain ⟨a, ha, hle, hr⟩ := getTagNameRange_start (u := u) (cs := cs) (d := d) hdone.opn hname
      simp only [Option.isNone_some, Bool.false_eq_true, if_false, hr, bind, Except.bind]
      cases he : n.endTagStart with
      | none =>
        simp only [Node.isSelfClosing, he, Option.isNone_none, if_true, Option.any_some, Option.any_none,
          Bool.or_false, Option.toList_some, Option.toList_none, List.append_nil]
        have hex : (∃ r ∈ [(⟨d.posAt a, d.posAt (a + t.length)⟩ : Range)], PosLe r.start p ∧ PosLe p r.stop) ↔
            Range.covers ⟨d.posAt a, d.posAt (a + t.length)⟩ p = true := by
          rw [covers_iff]; simp
        refine ⟨_, (apply_ite Except.ok _ _ _).symm, fun hno => absurd h2 (hno n h1), fun m hm hc hk => ?_⟩
        cases huniq m hm hc hk
        refine ⟨fun h' => by (rw [ht] at h'; cases h'), fun t' ht' => ?_⟩
        rw [ht] at ht'; cases ht'
        refine ⟨_, ⟨a, ha, .inl ⟨he, rfl⟩⟩, ?_, ?_⟩
        · rw [hex]; exact fun hx => if_pos hx
        · rw [hex]; exact fun hx => if_neg hx
      | some e =>
        obtain ⟨_, hlt, hste, name, hsame, hn'⟩ := hdone.ets e he
        rw [ht] at hsame
        obtain ⟨t', rfl⟩ : ∃ t', name = some t' := by
          cases name with
          | none => simp [SameName] at hsame
          | some t' => exact ⟨t', rfl⟩
        have hn'' : NameIs u d.text (e + 2) (some t') n.stop := by
          rcases hn' with hn' | hn'
          · exact hn'.2.mono (by omega)
          · exact hn'.2
        obtain ⟨a', ha', hle', hr'⟩ := getTagNameRange_end (u := u) (cs := cs) (d := d) hlt hn''
        have haa : a + t.length < a' := by
          obtain ⟨_, _, s, hs, _, hse⟩ := (C14_offsets_point_at_brackets u cs void _ roots n h h1).2.2.1 e he
          rw [hs, Option.getD_some] at hle
          obtain ⟨_, _, _, w, _, _, hw⟩ := ha'
          omega
        simp only [Node.isSelfClosing, he, Option.isNone_some, Bool.false_eq_true, if_false, unwrap, hr',
          Option.any_some, Option.toList_some]
        have hex : (∃ r ∈ [(⟨d.posAt a, d.posAt (a + t.length)⟩ : Range), ⟨d.posAt a', d.posAt (a' + t'.length)⟩],
              PosLe r.start p ∧ PosLe p r.stop) ↔
            (Range.covers ⟨d.posAt a, d.posAt (a + t.length)⟩ p ||
              Range.covers ⟨d.posAt a', d.posAt (a' + t'.length)⟩ p) = true := by
          rw [Bool.or_eq_true, covers_iff, covers_iff]; simp
        refine ⟨_, (apply_ite Except.ok _ _ _).symm, fun hno => absurd h2 (hno n h1), fun m hm hc hk => ?_⟩
        cases huniq m hm hc hk
        refine ⟨fun h' => by (rw [ht] at h'; cases h'), fun t'' ht' => ?_⟩
        rw [ht] at ht'; cases ht'
        refine ⟨_, ⟨a, ha, .inr ⟨e, t', a', he, ha', hsame, haa, hle', rfl⟩⟩, ?_, ?_⟩
        · rw [hex]; exact fun hx => if_pos hx
        · rw [hex]; exact fun hx => if_neg hx

example : returns (parse exUni false [b!"br"] b!"<p>\n< Div a>x</\nDIV></p>") (fun roots =>
    returns (findDocumentHighlights exUni false (.ref b!"<p>\n< Div a>x</\nDIV></p>") ⟨2, 3⟩ roots) (fun rs =>
      rs = [⟨⟨1, 2⟩, ⟨1, 5⟩⟩, ⟨⟨2, 0⟩, ⟨2, 3⟩⟩])) = true := by decide +kernel

end Html.Props
