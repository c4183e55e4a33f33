import Verif.Proof.HoverAnswers
import Verif.Proof.Panics
import Verif.Props.Scanner
import Verif.Props.Document
import Verif.Props.TextDocument

/-! # Hover: C42, C52 -/

namespace Html.Props
open Html Spec

/-- C42: no answer for a cursor outside of all elements. -/
theorem C42_outside (u : Uni) (cs : Bool) (void : List Str) (e : HoverEnv) (d : TextDoc) (roots : List Node)
    (p : Pos) (h : parse u cs void d.text = .ok roots)
    (hp : ∀ n, InForest roots n → ¬ Covers n (d.offsetAt p)) : doHover e d p roots = .ok none := by
  unfold doHover
  simp only [(C21_none_iff u cs void d.text roots _ h).2 hp]

theorem doHover_inside {u : Uni} {cs : Bool} {void : List Str} {e : HoverEnv} {d : TextDoc} {roots : List Node}
    {p : Pos} {n : Node} {tag : Str} (h : parse u cs void d.text = .ok roots)
    (hn : Innermost roots n (d.offsetAt p)) (ht : n.tag = some tag) (hb : BeforeEndTag n (d.offsetAt p)) :
    doHover e d p roots = e.hoverInside d p n tag (d.offsetAt p) := by
  obtain ⟨ps, hf⟩ := findNodeAt_of_covers h hn.mem hn.covers hn.inner
  unfold doHover
  simp only [hf, ht]
  cases he : n.endTagStart with
  | none => rfl
  | some a =>
    have := hb a he
    simp only
    rw [if_neg (by omega)]

/-- C42: with the cursor on the name in the start tag, the answer is what the data providers
know about the tag, for the range of the name. -/
theorem C42_start_tag_name (cs : Bool) (void : List Str) (e : HoverEnv) (d : TextDoc) (roots : List Node)
    (n : Node) (tag : Str) (h : parse e.uni cs void d.text = .ok roots) (hm : InForest roots n)
    (ht : n.tag = some tag) :
    ∃ a, NameAt d.text (n.start + 1) tag a ∧
      ∀ p, Innermost roots n (d.offsetAt p) → BeforeEndTag n (d.offsetAt p) →
        a ≤ d.offsetAt p → d.offsetAt p ≤ a + tag.length →
        doHover e d p roots = .ok (tagAnswer e tag ⟨d.posAt a, d.posAt (a + tag.length)⟩) := by
  have hd := parse_done h hm
  have hname := hd.name
  rw [ht] at hname
  obtain ⟨a, h1, _, h2⟩ := tokenRange_startTag (e := e) (d := d) hd.opn hname
  refine ⟨a, h1, fun p hn hb h3 h4 => ?_⟩
  rw [doHover_inside h hn ht hb]
  unfold HoverEnv.hoverInside
  rw [h2 _ h3 h4]
  simp only [bind, Except.bind]
  rw [tagHover_eq]

/-- C42: with the cursor on the name in the end tag, the answer is what the data providers
know about the tag, for the range of the name; elsewhere behind `</` there is no answer. -/
theorem C42_end_tag_name (cs : Bool) (void : List Str) (e : HoverEnv) (d : TextDoc) (roots : List Node)
    (n : Node) (tag : Str) (b : Nat) (h : parse e.uni cs void d.text = .ok roots) (hm : InForest roots n)
    (ht : n.tag = some tag) (hb : n.endTagStart = some b) :
    ∃ a name, SameName e.uni cs (some tag) (some name) ∧ NameAt d.text (b + 2) name a ∧
      ∀ p, Innermost roots n (d.offsetAt p) → b ≤ d.offsetAt p →
        (a ≤ d.offsetAt p → d.offsetAt p ≤ a + name.length →
          doHover e d p roots = .ok (tagAnswer e tag ⟨d.posAt a, d.posAt (a + name.length)⟩)) ∧
        ∀ r, doHover e d p roots = .ok (some r) → tagAnswer e tag (r.range.getD ⟨p, p⟩) = some r := by
  have hd := parse_done h hm
  obtain ⟨_, hat, _, name, hs, hname⟩ := hd.ets b hb
  rw [ht] at hs
  cases name with
  | none => simp [SameName] at hs
  | some name =>
    have hx : ∃ hi, NameIs e.uni d.text (b + 2) (some name) hi := by
      rcases hname with ⟨_, hname⟩ | ⟨_, hname⟩ <;> exact ⟨_, hname⟩
    obtain ⟨hi, hname⟩ := hx
    obtain ⟨a, h1, _, h2⟩ := tokenRange_endTag (e := e) (d := d) hat hname
    refine ⟨a, name, hs, h1, fun p hn hbo => ⟨fun h3 h4 => ?_, fun r hr => ?_⟩⟩
    all_goals obtain ⟨ps, hf⟩ := findNodeAt_of_covers h hn.mem hn.covers hn.inner
    · unfold doHover
      simp only [hf, ht, hb]
      rw [if_pos hbo, h2 _ h3 h4]
      simp only [bind, Except.bind]
      rw [tagHover_eq]
    · unfold doHover at hr
      simp only [hf, ht, hb] at hr
      rw [if_pos hbo] at hr
      obtain ⟨x, _, hr⟩ := bind_ok hr
      cases x with
      | none => cases hr
      | some x =>
        simp only [Except.ok.injEq] at hr
        rw [tagHover_eq] at hr
        have hx : r.range = some x := by
          unfold tagAnswer at hr
          rw [Option.map_eq_some_iff] at hr
          obtain ⟨_, _, rfl⟩ := hr
          rfl
        rw [hx]
        exact hr

/-- C42: with the cursor on an attribute name, the answer is what the data providers know about
the attribute of that name, for the range of the name. -/
theorem C42_attribute_name (u : Uni) (cs : Bool) (void : List Str) (cps : List Nat) (e : HoverEnv) (d : TextDoc)
    (roots : List Node) (n : Node) (tag : Str) (ts : List Tok) (t : Tok) (p : Pos) (hl : Lawful d)
    (hu : Utf8 cps d.text) (h : parse u cs void d.text = .ok roots) (hn : Innermost roots n (d.offsetAt p))
    (ht : n.tag = some tag) (hb : BeforeEndTag n (d.offsetAt p))
    (hts : tokens ⟨e.uni, d.text, false, e.caseSensitive⟩ (.new n.start .WithinContent) = .ok ts)
    (hmem : t ∈ ts) (hk : t.type = .AttributeName) (hto : Touches (d.offsetAt p) t) :
    doHover e d p roots =
      .ok (attrAnswer e tag (text d.text t) (d.offsetAt p) ⟨d.posAt t.offset, d.posAt t.stop⟩) := by
  have hd := parse_done h hn.mem
  have hlt : n.start < d.text.length := Nat.lt_of_lt_of_le hd.lt hd.le
  have hrun := hoverRun (c := e.cfg d) rfl (Nat.le_of_lt hlt) hts
  rw [doHover_inside h hn ht hb]
  unfold HoverEnv.hoverInside
  rw [tokenRange_eq (by decide) hts hlt hn.covers.1,
    hrun.find_none hmem hto (.inl hk) (.inl rfl) (by rw [hk]; decide)]
  simp only [Option.map_none, bind, Except.bind]
  rw [tokenRange_eq (by decide) hts hlt hn.covers.1]
  have hfind := hrun.find_eq hmem hto (.inl hk)
  rw [hk] at hfind
  rw [hfind]
  simp only [Option.map_some]
  obtain ⟨s2, hr, _⟩ := tokens_run hts
  obtain ⟨s0, s1, hst, hne, rfl⟩ := hr.mem hmem
  obtain ⟨b1, b2⟩ := hst.attrBd (asciiNext_of_utf8 hu) (.inl hk)
  rw [hl.content_ok (a := s1.tok.offset) (b := s1.tok.stop) (Nat.le_of_lt (hrun.adv _ hmem))
    (by rw [show s1.tok.offset = s0.pos from hst.offset_eq]; exact b1) b2]
  simp only
  rw [attrHover_eq]
  rfl

/-- C42: with the cursor on an attribute value (and not on a character reference), the answer
is that of the first participant that has one, else what the data providers know about the value
without its quotes; the attribute is the last one whose name is in front of the value. -/
theorem C42_attribute_value (u : Uni) (cs : Bool) (void : List Str) (cps : List Nat) (e : HoverEnv) (d : TextDoc)
    (roots : List Node) (n : Node) (tag : Str) (pre post : List Tok) (t a : Tok) (v : Str) (p : Pos)
    (hl : Lawful d) (hc : Columns d) (hp : Exact d p)
    (hu : Utf8 cps d.text) (h : parse u cs void d.text = .ok roots) (hn : Innermost roots n (d.offsetAt p))
    (ht : n.tag = some tag) (hb : BeforeEndTag n (d.offsetAt p))
    (hts : tokens ⟨e.uni, d.text, false, e.caseSensitive⟩ (.new n.start .WithinContent) = .ok (pre ++ t :: post))
    (hk : t.type = .AttributeValue) (hto : Touches (d.offsetAt p) t)
    (hent : ∀ k m, ¬ EntityAt d.text (d.offsetAt p) k m)
    (ha : (pre.filter (fun x => x.type = .AttributeName)).getLast? = some a)
    (hv : unquoted (text d.text t) v) :
    doHover e d p roots = .ok (valueAnswer e tag (text d.text a) v ⟨d.posAt t.offset, d.posAt t.stop⟩) := by
  have hd := parse_done h hn.mem
  have hlt : n.start < d.text.length := Nat.lt_of_lt_of_le hd.lt hd.le
  have hrun := hoverRun (c := e.cfg d) rfl (Nat.le_of_lt hlt) hts
  have hmem : t ∈ pre ++ t :: post := by simp
  rw [doHover_inside h hn ht hb]
  unfold HoverEnv.hoverInside
  rw [tokenRange_eq (by decide) hts hlt hn.covers.1,
    hrun.find_none hmem hto (.inr hk) (.inl rfl) (by rw [hk]; decide)]
  simp only [Option.map_none, bind, Except.bind]
  rw [tokenRange_eq (by decide) hts hlt hn.covers.1,
    hrun.find_none hmem hto (.inr hk) (.inr rfl) (by rw [hk]; decide)]
  simp only [Option.map_none]
  rw [getEntityRange_none hc hp hent]
  simp only
  unfold HoverEnv.hoverValue
  rw [tokenRange_eq (by decide) hts hlt hn.covers.1]
  have hfind := hrun.find_eq hmem hto (.inr hk)
  rw [hk] at hfind
  rw [hfind]
  simp only [Option.map_some, bind, Except.bind]
  obtain ⟨s2, hr, _⟩ := tokens_run (c := e.cfg d) hts
  obtain ⟨hcon, _⟩ := hr.contiguous (c := e.cfg d) (Nat.le_of_lt hlt)
  have hmu := hr.length_mu
  have hmu2 := mu_le (e.cfg d) (.new n.start .WithinContent)
  have hadv := hrun.adv _ hmem
  have hbd : isBoundary d.text t.offset = true ∧ isBoundary d.text t.stop = true := by
    obtain ⟨s0, s1, hst, hne, rfl⟩ := hr.mem hmem
    obtain ⟨b1, b2⟩ := hst.attrBd (asciiNext_of_utf8 hu) (.inr hk)
    exact ⟨by rw [show s1.tok.offset = s0.pos from hst.offset_eq]; exact b1, b2⟩
  rw [hl.content_ok (by omega) hbd.1 hbd.2]
  simp only
  rw [hl.roundTrip _ (isBoundary_le hbd.1) hbd.1]
  -- the tokens in front of the value
  cases pre with
  | nil => simp at ha
  | cons x pre =>
    have hx : x.type ≠ .AttributeName := by
      intro hx
      have := hrun.gram [] (pre ++ t :: post) x rfl
      rw [hx] at this
      revert this
      simp [MayFollow, lastBracket]
    rw [List.filter_cons_of_neg (by simpa using hx)] at ha
    unfold HoverEnv.scanAttr
    cases hr with
    | @cons _ s1 _ _ hs hne hr =>
      rw [show scan (e.cfg d) (.new n.start .WithinContent) = .ok s1 from hs]
      simp only [bind, Except.bind]
      obtain ⟨_, _, hcon⟩ := hcon
      have hle : s1.pos ≤ t.offset := contiguous_ge hcon (t := t) (by simp)
      rw [attrBefore_run (c := e.cfg d) (asciiNext_of_utf8 hu) hk rfl hadv hr hcon hne hle
        (by
          have h1 : (e.cfg d).src.length = d.text.length := rfl
          have h2 : (Sc.new n.start .WithinContent).pos = n.start := rfl
          rw [h1, h2] at hmu2
          simp only [List.length_append, List.length_cons] at hmu
          omega)]
      rw [ha]
      simp only [Option.map_some, Option.some_or]
      rw [attrValueHover_eq]
      have : trimQuotes (bytesIn d.text t.offset t.stop) = v := trimQuotes_eq hv
      rw [this]
      rfl

/-- C42: with the cursor on a character reference, and not on a name, the answer is the entry
of that name, for the range of the reference without its ampersand. -/
theorem C42_entity (u : Uni) (cs : Bool) (void : List Str) (e : HoverEnv) (d : TextDoc)
    (roots : List Node) (n : Node) (tag : Str) (ts : List Tok) (k m : Nat) (p : Pos)
    (hc : Columns d) (hp : Exact d p)
    (h : parse u cs void d.text = .ok roots) (hn : Innermost roots n (d.offsetAt p))
    (ht : n.tag = some tag) (hb : BeforeEndTag n (d.offsetAt p))
    (hts : tokens ⟨e.uni, d.text, false, e.caseSensitive⟩ (.new n.start .WithinContent) = .ok ts)
    (hno : ∀ t ∈ ts, t.type = .StartTag ∨ t.type = .AttributeName → ¬ Touches (d.offsetAt p) t)
    (hent : EntityAt d.text (d.offsetAt p) k m) :
    doHover e d p roots = .ok (entityAnswer e (bytesIn d.text k (k + m))
      ⟨d.posAt k, d.posAt (if d.text[k + m]? = some 59 then k + m + 1 else k + m)⟩) := by
  have hd := parse_done h hn.mem
  have hlt : n.start < d.text.length := Nat.lt_of_lt_of_le hd.lt hd.le
  have hnone : ∀ K, K = TT.StartTag ∨ K = TT.AttributeName →
      ts.find? (fun x => decide (x.type = K ∧ x.offset ≤ d.offsetAt p ∧ d.offsetAt p ≤ x.stop)) = none := by
    intro K hK
    rw [List.find?_eq_none]
    intro x hx
    rw [decide_eq_true_eq]
    rintro ⟨h1, h2⟩
    exact hno x hx (by rw [h1]; exact hK) h2
  rw [doHover_inside h hn ht hb]
  unfold HoverEnv.hoverInside
  rw [tokenRange_eq (by decide) hts hlt hn.covers.1, hnone _ (.inl rfl)]
  simp only [Option.map_none, bind, Except.bind]
  rw [tokenRange_eq (by decide) hts hlt hn.covers.1, hnone _ (.inr rfl)]
  simp only [Option.map_none]
  rw [getEntityRange_some hc hp hent]
  simp only
  rw [entityHover_eq hent]

/-- C42: with the cursor on neither of them, the answer is that of the first participant that
has one for content. -/
theorem C42_content (u : Uni) (cs : Bool) (void : List Str) (e : HoverEnv) (d : TextDoc)
    (roots : List Node) (n : Node) (tag : Str) (ts : List Tok) (p : Pos)
    (hc : Columns d) (hp : Exact d p)
    (h : parse u cs void d.text = .ok roots) (hn : Innermost roots n (d.offsetAt p))
    (ht : n.tag = some tag) (hb : BeforeEndTag n (d.offsetAt p))
    (hts : tokens ⟨e.uni, d.text, false, e.caseSensitive⟩ (.new n.start .WithinContent) = .ok ts)
    (hno : ∀ t ∈ ts, t.type = .StartTag ∨ t.type = .AttributeName ∨ t.type = .AttributeValue →
      ¬ Touches (d.offsetAt p) t)
    (hent : ∀ k m, ¬ EntityAt d.text (d.offsetAt p) k m) :
    doHover e d p roots = .ok (e.participants.findSome? (·.onContent)) := by
  have hd := parse_done h hn.mem
  have hlt : n.start < d.text.length := Nat.lt_of_lt_of_le hd.lt hd.le
  have hnone : ∀ K, K = TT.StartTag ∨ K = TT.AttributeName ∨ K = TT.AttributeValue →
      ts.find? (fun x => decide (x.type = K ∧ x.offset ≤ d.offsetAt p ∧ d.offsetAt p ≤ x.stop)) = none := by
    intro K hK
    rw [List.find?_eq_none]
    intro x hx
    rw [decide_eq_true_eq]
    rintro ⟨h1, h2⟩
    exact hno x hx (by rw [h1]; exact hK) h2
  rw [doHover_inside h hn ht hb]
  unfold HoverEnv.hoverInside
  rw [tokenRange_eq (by decide) hts hlt hn.covers.1, hnone _ (.inl rfl)]
  simp only [Option.map_none, bind, Except.bind]
  rw [tokenRange_eq (by decide) hts hlt hn.covers.1, hnone _ (.inr (.inl rfl))]
  simp only [Option.map_none]
  rw [getEntityRange_none hc hp hent]
  simp only
  unfold HoverEnv.hoverValue
  rw [tokenRange_eq (by decide) hts hlt hn.covers.1, hnone _ (.inr (.inr rfl))]
  simp only [Option.map_none, bind, Except.bind]
  rw [firstAnswer_eq]

/-- C42: the range of an answer contains the cursor, provided the participants keep to this. -/
theorem C42_range_contains (u : Uni) (cs : Bool) (void : List Str) (e : HoverEnv) (d : TextDoc)
    (roots : List Node) (p : Pos) (a : Hover) (r : Range) (hl : Lawful d) (hp : Exact d p)
    (h : parse u cs void d.text = .ok roots)
    (hpart : ∀ q ∈ e.participants, (∀ x y z g w r', q.onAttributeValue x y z g = some w → w.range = some r' →
      InRange p g → InRange p r') ∧ ∀ w r', q.onContent = some w → w.range = some r' → InRange p r')
    (ha : doHover e d p roots = .ok (some a)) (hr : a.range = some r) : InRange p r := by
  have hin : ∀ {k i g}, i ≤ d.text.length → i ≤ d.offsetAt p → e.tokenRange d k i (d.offsetAt p) = .ok (some g) →
      InRange p g := by
    intro k i g hi ho hg
    obtain ⟨x, y, rfl, h1, h2⟩ := tokenRange_contains hi ho hg
    have hp' : d.posAt (d.offsetAt p) = p := hp
    have h3 := hl.mono x _ h1
    have h4 := hl.mono _ y h2
    rw [hp'] at h3 h4
    exact ⟨h3, h4⟩
  have htag : ∀ {tag g}, InRange p g → tagAnswer e tag g = some a → InRange p r := by
    intro tag g hg hx
    unfold tagAnswer at hx
    rw [Option.map_eq_some_iff] at hx
    obtain ⟨_, _, rfl⟩ := hx
    cases hr
    exact hg
  have hcontent : e.participants.findSome? (·.onContent) = some a → InRange p r := by
    intro hx
    obtain ⟨q, hq, hx⟩ := List.exists_of_findSome?_eq_some hx
    exact (hpart q hq).2 a r hx hr
  unfold doHover at ha
  dsimp only at ha
  cases hf : findNodeAt roots (d.offsetAt p) with
  | none => simp only [hf] at ha; cases ha
  | some x =>
    obtain ⟨n, ps⟩ := x
    simp only [hf] at ha
    obtain ⟨hm, hcov⟩ := findNodeAt_mem h hf
    have hd := parse_done h hm
    have hns : n.start ≤ d.text.length := by
      have h1 := hd.lt
      have h2 : n.stop ≤ d.text.length := hd.le
      omega
    cases ht : n.tag with
    | none => simp only [ht] at ha; cases ha
    | some tag =>
      simp only [ht] at ha
      have hinside : e.hoverInside d p n tag (d.offsetAt p) = .ok (some a) → InRange p r := by
        intro ha
        unfold HoverEnv.hoverInside at ha
        obtain ⟨x, hx, ha⟩ := bind_ok ha
        cases x with
        | some g =>
          simp only [Except.ok.injEq] at ha
          rw [tagHover_eq] at ha
          exact htag (hin hns hcov.1 hx) ha
        | none =>
          simp only at ha
          obtain ⟨x, hx, ha⟩ := bind_ok ha
          cases x with
          | some g =>
            simp only at ha
            obtain ⟨attr, _, ha⟩ := bind_ok ha
            simp only [Except.ok.injEq] at ha
            rw [attrHover_eq] at ha
            unfold attrAnswer at ha
            rw [Option.map_eq_some_iff] at ha
            obtain ⟨_, _, rfl⟩ := ha
            cases hr
            exact hin hns hcov.1 hx
          | none =>
            simp only at ha
            obtain ⟨x, hx, ha⟩ := bind_ok ha
            cases x with
            | some g =>
              simp only at ha
              unfold HoverEnv.entityHover at ha
              obtain ⟨name, hname, ha⟩ := bind_ok ha
              unfold filterEntity at hname
              dsimp only at hname
              split at hname
              · cases hname
              · cases hname
                rw [entityHover1_eq] at ha
                simp only [Except.ok.injEq, Option.map_eq_some_iff] at ha
                obtain ⟨_, _, rfl⟩ := ha
                cases hr
                exact getEntityRange_contains hx
            | none =>
              simp only at ha
              unfold HoverEnv.hoverValue at ha
              obtain ⟨x, hx, ha⟩ := bind_ok ha
              cases x with
              | none =>
                simp only [Except.ok.injEq] at ha
                rw [firstAnswer_eq] at ha
                exact hcontent ha
              | some g =>
                simp only at ha
                obtain ⟨y, hy, ha⟩ := bind_ok ha
                obtain ⟨z, hz, ha⟩ := bind_ok ha
                cases z with
                | none =>
                  simp only [Except.ok.injEq] at ha
                  rw [firstAnswer_eq] at ha
                  exact hcontent ha
                | some attr =>
                  simp only [Except.ok.injEq] at ha
                  rw [attrValueHover_eq] at ha
                  have hg := hin hns hcov.1 hx
                  unfold valueAnswer at ha
                  rw [Option.or_eq_some_iff] at ha
                  rcases ha with ha | ⟨_, ha⟩
                  · obtain ⟨q, hq, ha⟩ := List.exists_of_findSome?_eq_some ha
                    exact (hpart q hq).1 _ _ _ _ a r ha hr hg
                  · rw [Option.map_eq_some_iff] at ha
                    obtain ⟨_, _, rfl⟩ := ha
                    cases hr
                    exact hg
      cases he : n.endTagStart with
      | none => simp only [he] at ha; exact hinside ha
      | some b =>
        simp only [he] at ha
        split at ha
        · rename_i hb
          obtain ⟨x, hx, ha⟩ := bind_ok ha
          cases x with
          | none => cases ha
          | some g =>
            simp only [Except.ok.injEq] at ha
            rw [tagHover_eq] at ha
            have h2 : n.stop ≤ d.text.length := hd.le
            have := hcov.2
            exact htag (hin (by omega) hb hx) ha
        · exact hinside ha

/-- C42: hovering over a UTF-8 document does not panic, if scanning returns from every `<` on. -/
theorem C42_no_panic (u : Uni) (cs : Bool) (void : List Str) (e : HoverEnv) (d : TextDoc) (cps : List Nat)
    (roots : List Node) (p : Pos) (hl : Lawful d) (hc : Columns d) (hp : Exact d p) (hu : Utf8 cps d.text)
    (hs : ∀ i, d.text[i]? = some 60 → ∃ ts, tokens ⟨e.uni, d.text, false, e.caseSensitive⟩ (.new i .WithinContent) = .ok ts)
    (h : parse u cs void d.text = .ok roots) : ∃ a, doHover e d p roots = .ok a := by
  have htr : ∀ {k i}, k ≠ .EOS → d.text[i]? = some 60 → i ≤ d.offsetAt p →
      ∃ g, e.tokenRange d k i (d.offsetAt p) = .ok g := by
    intro k i hk hi ho
    obtain ⟨ts, hts⟩ := hs i hi
    exact ⟨_, tokenRange_eq hk hts (List.getElem?_eq_some_iff.1 hi).1 ho⟩
  have hcon : ∀ g : Range, ∀ {k i}, k = .AttributeName ∨ k = .AttributeValue →
      e.tokenRange d k i (d.offsetAt p) = .ok (some g) →
      d.text[i]? = some 60 → i ≤ d.offsetAt p → ∃ x, d.content g = .ok x := by
    intro g k i hk hg hi ho
    obtain ⟨ts, hts⟩ := hs i hi
    rw [tokenRange_eq (by rcases hk with rfl | rfl <;> decide) hts (List.getElem?_eq_some_iff.1 hi).1 ho] at hg
    simp only [Except.ok.injEq, Option.map_eq_some_iff] at hg
    obtain ⟨t, ht, rfl⟩ := hg
    have hm := List.mem_of_find?_eq_some ht
    have ht := List.find?_some ht
    simp only [decide_eq_true_eq] at ht
    obtain ⟨s2, hr, _⟩ := tokens_run hts
    have := hr.attrBd (asciiNext_of_utf8 hu) hm (by rw [ht.1]; exact hk)
    exact ⟨_, hl.content_ok (by omega) this.1 this.2⟩
  unfold doHover
  dsimp only
  cases hf : findNodeAt roots (d.offsetAt p) with
  | none => exact ⟨_, rfl⟩
  | some x =>
    obtain ⟨n, ps⟩ := x
    simp only
    obtain ⟨hm, hcov⟩ := findNodeAt_mem h hf
    have hd := parse_done h hm
    have hns : d.text[n.start]? = some 60 := hd.opn
    cases ht : n.tag with
    | none => exact ⟨_, rfl⟩
    | some tag =>
      simp only
      have hinside : ∃ a, e.hoverInside d p n tag (d.offsetAt p) = .ok a := by
        unfold HoverEnv.hoverInside
        obtain ⟨x, hx⟩ := htr (k := .StartTag) (by decide) hns hcov.1
        simp only [hx, bind, Except.bind]
        cases x with
        | some g => exact ⟨_, rfl⟩
        | none =>
          simp only
          obtain ⟨x, hx⟩ := htr (k := .AttributeName) (by decide) hns hcov.1
          simp only [hx]
          cases x with
          | some g =>
            obtain ⟨y, hy⟩ := hcon g (by decide) hx hns hcov.1
            simp only [hy]
            exact ⟨_, rfl⟩
          | none =>
            simp only
            have hent : ∃ g, getEntityRange d p (d.offsetAt p) = .ok g := by
              rcases Classical.em (∃ k m, EntityAt d.text (d.offsetAt p) k m) with ⟨k, m, hkm⟩ | hno
              · exact ⟨_, getEntityRange_some hc hp hkm⟩
              · exact ⟨_, getEntityRange_none hc hp (fun k m hkm => hno ⟨k, m, hkm⟩)⟩
            obtain ⟨x, hx⟩ := hent
            simp only [hx]
            cases x with
            | some g => exact entityHover_total hx
            | none =>
              simp only
              unfold HoverEnv.hoverValue
              obtain ⟨x, hx⟩ := htr (k := .AttributeValue) (by decide) hns hcov.1
              simp only [hx, bind, Except.bind]
              cases x with
              | none => exact ⟨_, rfl⟩
              | some g =>
                obtain ⟨y, hy⟩ := hcon g (by decide) hx hns hcov.1
                simp only [hy]
                have hsa : ∃ z, e.scanAttr d n.start (d.offsetAt g.start) = .ok z := by
                  unfold HoverEnv.scanAttr
                  obtain ⟨ts, hts⟩ := hs n.start hns
                  have hN := tokensF_scanN hts
                  obtain ⟨s', h1⟩ := hN 1
                  unfold scanN at h1
                  obtain ⟨s1, hs1, _⟩ := bind_ok h1
                  have hs1 : scan (e.cfg d) (.new n.start .WithinContent) = .ok s1 := hs1
                  have hN1 : ∀ m, ∃ s', scanN (e.cfg d) m s1 = .ok s' := by
                    intro m
                    obtain ⟨s', h2⟩ := hN (m + 1)
                    have h2 : scanN (e.cfg d) (m + 1) (.new n.start .WithinContent) = .ok s' := h2
                    unfold scanN at h2
                    rw [hs1] at h2
                    exact ⟨s', h2⟩
                  simp only [hs1, bind, Except.bind]
                  have hmu2 := mu_le (e.cfg d) (.new n.start .WithinContent)
                  have h1 : (e.cfg d).src.length = d.text.length := rfl
                  have h2 : (Sc.new n.start .WithinContent).pos = n.start := rfl
                  have h3 := (List.getElem?_eq_some_iff.1 hns).1
                  rw [h1, h2] at hmu2
                  by_cases heos : s1.tokenType = .EOS
                  · unfold attrBefore
                    rw [if_neg (fun h => h.1 heos)]
                    exact ⟨_, rfl⟩
                  · have := (scan_step hs1).mu_lt heos
                    exact attrBefore_total (c := e.cfg d) (asciiNext_of_utf8 hu) hN1 (by omega)
                obtain ⟨z, hz⟩ := hsa
                simp only [hz]
                cases z <;> exact ⟨_, rfl⟩
      cases he : n.endTagStart with
      | none => exact hinside
      | some b =>
        simp only
        split
        · rename_i hb
          obtain ⟨_, hat, _⟩ := hd.ets b he
          have hlt : d.text[b]? = some 60 := at_get0 hat
          obtain ⟨x, hx⟩ := htr (k := .EndTag) (by decide) hlt hb
          simp only [hx, bind, Except.bind]
          cases x <;> exact ⟨_, rfl⟩
        · exact hinside

/-- C42: so hovering does not panic over a UTF-8 document without non-ASCII white space and C1 control characters,
that ends with an ASCII character. -/
theorem C42_plain_text_no_panic (u : Uni) (cs : Bool) (void : List Str) (e : HoverEnv) (d : TextDoc) (cps : List Nat)
    (roots : List Node) (p : Pos) (hl : Lawful d) (hc : Columns d) (hp : Exact d p) (hu : Utf8 cps d.text)
    (hodd : ∀ cp ∈ cps, ¬ OddSpace cp) (hlast : ∀ b, d.text.getLast? = some b → b < 128)
    (h : parse u cs void d.text = .ok roots) : ∃ a, doHover e d p roots = .ok a :=
  C42_no_panic u cs void e d cps roots p hl hc hp hu (fun i hi =>
    (C08_plain_text_returns ⟨e.uni, d.text, false, e.caseSensitive⟩ cps i .WithinContent hu hodd hlast
      (isBoundary_ascii hi (by omega))).1) h

/-- C42: hovering over an ASCII document does not panic. -/
theorem C42_ascii_no_panic (u : Uni) (cs : Bool) (void : List Str) (e : HoverEnv) (d : TextDoc)
    (roots : List Node) (p : Pos) (hl : Lawful d) (hc : Columns d) (hp : Exact d p) (ha : isAscii d.text)
    (h : parse u cs void d.text = .ok roots) : ∃ a, doHover e d p roots = .ok a :=
  C42_no_panic u cs void e d _ roots p hl hc hp (utf8_of_ascii ha) (fun i hi =>
    (C08_ascii_no_panic ⟨e.uni, d.text, false, e.caseSensitive⟩ (.new i .WithinContent) ha
      (Nat.le_of_lt (List.getElem?_eq_some_iff.1 hi).1)).1) h

/-! ### C52 -/

/-- C52: without participants, answers are Markdown only if the service was set up for it, and
the documentation of tags, attributes and values then always is. -/
theorem C52_contents_kind (e : HoverEnv) (d : TextDoc) (roots : List Node) (p : Pos) (a : Hover)
    (hpart : e.participants = []) (ha : doHover e d p roots = .ok (some a)) :
    a.contents.markdown = e.supportsMarkdown ∨
    a.contents.markdown = false ∧ ∃ name r, entityAnswer e name r = some a := by
  rcases doHover_source ha with ⟨tag, r, h⟩ | ⟨tag, attr, o, r, h⟩ | ⟨name, r, h⟩ | ⟨tag, attr, v, r, h⟩ | h
  · left
    unfold tagAnswer at h
    rw [Option.map_eq_some_iff] at h
    obtain ⟨t, _, rfl⟩ := h
    show Markup.markdown (Option.getD _ _) = _
    cases hd : docOf e t.description t.references with
    | none => rfl
    | some m => exact docOf_kind hd
  · left
    unfold attrAnswer at h
    rw [Option.map_eq_some_iff] at h
    obtain ⟨m, hm, rfl⟩ := h
    obtain ⟨q, _, hq⟩ := List.exists_of_findSome?_eq_some hm
    unfold attrDoc at hq
    rw [Option.bind_eq_some_iff] at hq
    obtain ⟨x, _, hx⟩ := hq
    exact docOf_kind hx
  · right
    refine ⟨?_, name, r, h⟩
    unfold entityAnswer at h
    rw [Option.map_eq_some_iff] at h
    obtain ⟨t, _, rfl⟩ := h
    rfl
  · left
    unfold valueAnswer at h
    rw [hpart] at h
    simp only [List.findSome?_nil, Option.none_or] at h
    rw [Option.map_eq_some_iff] at h
    obtain ⟨m, hm, rfl⟩ := h
    obtain ⟨q, _, hq⟩ := List.exists_of_findSome?_eq_some hm
    unfold valueDoc at hq
    obtain ⟨x, _, hx⟩ := List.exists_of_findSome?_eq_some hq
    exact docOf_kind hx
  · rw [hpart] at h; cases h

/-- C52 fails: what the client says about the contents of hovers does not matter.  A client
whose hovers must be plain text gets Markdown if its completion items may be Markdown, and the
other way round. -/
theorem C52_hover_format_ignored :
    (∀ m h h', doesSupportMarkdown (some ⟨m, h⟩) = doesSupportMarkdown (some ⟨m, h'⟩)) ∧
    doesSupportMarkdown (some ⟨some true, some false⟩) = true ∧
    doesSupportMarkdown (some ⟨some false, some true⟩) = false ∧
    doesSupportMarkdown (some ⟨none, some true⟩) = false :=
  ⟨fun _ _ _ => rfl, rfl, rfl, rfl⟩

/-! ### Examples -/

/-- A provider with a tag, an attribute and a value. -/
def exProvider : Provider where
  id := b!"x"
  isApplicable := fun _ => true
  provideTags := [⟨b!"a", some (.str b!"link"), [], none, none⟩]
  provideAttributes := fun tag _ => if tag = b!"a" then [⟨b!"b", some (.str b!"attr"), none, none, none⟩] else []
  provideValues := fun _ _ => [⟨b!"c", some (.str b!"value"), none⟩]

/-- Hover with that provider and one entity. -/
def exHover (cs : Bool) : HoverEnv where
  uni := exUni
  caseSensitive := cs
  supportsMarkdown := false
  participants := []
  languageId := b!"html"
  providers := [exProvider]
  documentation := true
  references := true
  entities := [(b!"lt;", b!"<")]

/-- The answer at an offset of a line. -/
def exHoverAt (cs : Bool) (src : Str) (o : Nat) : R (Option (Str × Option Range)) := do
  let roots ← parse exUni cs [] src
  let h ← doHover (exHover cs) (.ref src) ⟨0, o⟩ roots
  .ok (h.map fun h => (h.contents.value, h.range))

example : exHoverAt false b!"<A b='c'>&lt;</a>" 1 = .ok (some (b!"link", some ⟨⟨0, 1⟩, ⟨0, 2⟩⟩)) := by
  krfl
example : exHoverAt false b!"<a b='c'>&lt;</A>" 15 = .ok (some (b!"link", some ⟨⟨0, 15⟩, ⟨0, 16⟩⟩)) := by
  krfl
example : exHoverAt false b!"<a b='c'>&lt;</a>" 3 = .ok (some (b!"attr", some ⟨⟨0, 3⟩, ⟨0, 4⟩⟩)) := by
  krfl
example : exHoverAt false b!"<a b='c'>&lt;</a>" 6 = .ok (some (b!"value", some ⟨⟨0, 5⟩, ⟨0, 8⟩⟩)) := by
  krfl
example : exHoverAt false b!"<a b='c'>&lt;</a>" 11 =
    .ok (some (b!"Character entity representing '<', unicode equivalent 'U+003C'", some ⟨⟨0, 10⟩, ⟨0, 13⟩⟩)) := by
  krfl
example : EntityAt b!"<a>&lt;</a>" 5 4 2 := by
  refine ⟨by decide, by decide, by decide, by decide, ?_, ?_⟩
  · intro i h1 h2
    obtain rfl | rfl : i = 4 ∨ i = 5 := by omega
    · exact ⟨108, rfl, by decide⟩
    · exact ⟨116, rfl, by decide⟩
  · intro b hb
    cases hb
    decide
example : Columns (.ref b!"<a b='c'>&lt;</a>") ∧ Exact (.ref b!"<a b='c'>&lt;</a>") ⟨0, 6⟩ :=
  ⟨ref_columns _, by unfold Exact; decide +kernel⟩

/-- C42: attribute names are compared with their case even if case does not matter. -/
theorem C42_attribute_case_matters :
    exHoverAt false b!"<a b>" 3 = .ok (some (b!"attr", some ⟨⟨0, 3⟩, ⟨0, 4⟩⟩)) ∧
    exHoverAt false b!"<a B>" 3 = .ok none :=
  ⟨by krfl, by krfl⟩

/-- C42: hovering over a text that is parsed can panic (if the no-break space is no letter): behind a tag that is cut
short, the scanner for the token at the cursor reads on where the parser begins a new tag. -/
theorem C42_panics (l : Str → Str) (cs : Bool) :
    ∃ roots, parse ⟨fun _ => false, l⟩ cs [] b!"<p><i><a <\u00a0></i>x</p>" = .ok roots ∧
      doHover { exHover cs with uni := ⟨fun _ => false, l⟩ } (.ref b!"<p><i><a <\u00a0></i>x</p>") ⟨0, 16⟩ roots =
        .error .slice := by
  refine ⟨[⟨some b!"p", 0, 22, [⟨some b!"i", 3, 17, [⟨some b!"a", 6, 9, [], false, none, none, []⟩,
    ⟨none, 9, 13, [], false, some 13, none, []⟩], true, some 6, some 13, []⟩], true, some 3, some 18, []⟩], ?_, ?_⟩
  · cases cs <;> krfl
  · cases cs <;> krfl

end Html.Props
