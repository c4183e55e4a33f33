import Verif.Proof.SameDocs
import Verif.Props.HoverTree
import Verif.Props.Items
import Verif.Props.AcceptTag

/-! # The documentation in proposals and hovers: C89 -/

namespace Html.Props
open Html Spec

/-- **C89.** A proposed element and an element of the same name in a document have the same documentation, if no provider
for the language knows an element of this name with other documentation. -/
theorem C89_element (e : CompEnv) (e' : HoverEnv) (void : List Str) (d : TextDoc) (roots : List Node) (n : Node) (k : TagData)
    (i : CompItem) (hs : SameData e e') (hi : TagItem e k i)
    (ho : ∀ p ∈ e.providers, p.isApplicable e.languageId = true → ∀ t ∈ p.provideTags, SameTag e' t.name k.name →
      t.description = k.description ∧ t.references = k.references)
    (h : parse e'.uni e'.caseSensitive void d.text = .ok roots) (hn : InForest roots n) (ht : n.tag = some k.name) :
    ∃ a, NameAt d.text (n.start + 1) k.name a ∧
      (∀ p, a ≤ d.offsetAt p → d.offsetAt p ≤ a + k.name.length → d.offsetAt p < n.startTagEnd.getD n.stop →
        doHover e' d p roots = .ok (some ⟨⟨e'.supportsMarkdown, docText e'.supportsMarkdown k.description k.references⟩,
          some ⟨d.posAt a, d.posAt (a + k.name.length)⟩⟩)) ∧
      i.documentation = (hoverDoc true k.description k.references).map .markup := by
  obtain ⟨a, h1, h2⟩ := C88_element_name void e' d roots n k.name h hn ht
  refine ⟨a, h1, fun p h3 h4 h5 => ?_, by rw [hi.documentation, entryDoc_hover]⟩
  rw [h2 p h3 h4 h5, tagAnswer_only ⟨hs.documentation, hs.references⟩]
  · obtain ⟨p, p1, p2⟩ := List.mem_flatMap.1 hi.known
    obtain ⟨p3, p4⟩ := List.mem_filter.1 p1
    rw [hs.providers, hs.language]
    exact ⟨p, p3, (of_decide_eq_true p4).1, p2⟩
  · rw [hs.providers, hs.language]
    exact ho

/-- **C89.** In the text that accepting the proposal of an element leaves (C82), hovering over any character of the name
shows the documentation of the proposal. -/
theorem C89_accepted (e : CompEnv) (e' : HoverEnv) (void : List Str) (d : TextDoc) (roots : List Node) (k : TagData)
    (i : CompItem) (a y : Str) (p : Pos) (hs : SameData e e') (hi : TagItem e k i)
    (ho : ∀ p ∈ e.providers, p.isApplicable e.languageId = true → ∀ t ∈ p.provideTags, SameTag e' t.name k.name →
      t.description = k.description ∧ t.references = k.references)
    (hm : e'.supportsMarkdown = true) (ha : EndsInContent e'.uni e'.caseSensitive a) (hk : TagName k.name) (hy : NameEnds y)
    (ht : d.text = a ++ b!"<" ++ k.name ++ y) (h : parse e'.uni e'.caseSensitive void d.text = .ok roots)
    (h1 : a.length < d.offsetAt p) (h2 : d.offsetAt p ≤ a.length + k.name.length) :
    ∃ hover, doHover e' d p roots = .ok (some hover) ∧
      hover.range = some ⟨d.posAt (a.length + 1), d.posAt (a.length + 1 + k.name.length)⟩ ∧
      i.documentation = if hover.contents.value = [] then none else some (.markup hover.contents) := by
  have ht' : d.text = a ++ 60 :: (k.name ++ y) := by rw [ht]; simp
  obtain ⟨n, hn, n1, n2⟩ := named_node ha hk hy (ht' ▸ h)
  obtain ⟨x, x1, x2, x3⟩ := C89_element e e' void d roots n k i hs hi ho h hn n2
  obtain ⟨w, w1, w2, w3, _⟩ := (parse_done h hn).name.len _ n2
  obtain ⟨_, _, _, v, v1, v2, v3⟩ := x1
  obtain ⟨⟨b, t, hb, hb1⟩, _⟩ := hk
  have nosp : ∀ w r, Spaces w → d.text.drop (n.start + 1) = w ++ r → w = [] := by
    intro w r hw hat
    rw [n1, show a.length + 1 = (a ++ b!"<").length by simp, ht, List.append_assoc, List.drop_left, hb] at hat
    cases w with
    | nil => rfl
    | cons c w =>
      injection hat with h3 _
      subst h3
      have := hw b (by simp)
      unfold NameStartByte alnum Space at *
      omega
  obtain ⟨r1, r2⟩ := v2
  obtain ⟨r3, r4⟩ := w2
  have hv := nosp v _ v1 r2
  have hw := nosp w (k.name ++ r3) w1 ((show d.text.drop (n.start + 1) = _ from r4).trans (List.append_assoc ..))
  subst hv hw
  have hx : x = a.length + 1 := by rw [v3, n1]; rfl
  subst hx
  refine ⟨_, x2 p (by omega) (by omega) ?_, rfl, ?_⟩
  · rw [n1] at w3
    simp only [List.length_nil] at w3
    omega
  · rw [x3, hm]
    unfold hoverDoc
    split <;> rfl

/-- **C89.** A proposed attribute and an attribute of the same name in a document have the same documentation, if it has a
description and no provider for the language describes it differently for the element. -/
theorem C89_attribute (e : CompEnv) (e' : HoverEnv) (void : List Str) (d : TextDoc) (cps : List Nat) (roots : List Node) (n : Node)
    (tag : Str) (k : AttributeData) (x : Attr) (i : CompItem) (p : Pos) (hs : SameData e e')
    (hmd : e'.supportsMarkdown = e.supportsMarkdown) (hi : AttrItem e k i) (hoff : Offers e (some tag) (d.offsetAt p) k)
    (hdesc : k.description ≠ none)
    (ho : ∀ q ∈ e.providers, q.isApplicable e.languageId = true → ∀ t ∈ q.provideAttributes tag (d.offsetAt p), t.name = k.name →
      t.description ≠ none → t.description = k.description ∧ t.references = k.references)
    (hd : Lawful d) (hu : Utf8 cps d.text) (h : parse e'.uni e'.caseSensitive void d.text = .ok roots) (hn : InForest roots n)
    (ht : n.tag = some tag) (ha : (k.name, x) ∈ n.attributes) (h1 : x.offset ≤ d.offsetAt p)
    (h2 : d.offsetAt p ≤ x.offset + k.name.length) (h3 : d.offsetAt p < n.startTagEnd.getD n.stop) :
    ∃ doc : Option Markup, doHover e' d p roots =
        .ok (doc.map fun m => ⟨m, some ⟨d.posAt x.offset, d.posAt (x.offset + k.name.length)⟩⟩) ∧
      i.documentation = doc.map .markup := by
  refine ⟨hoverDoc e'.supportsMarkdown k.description k.references, ?_, by rw [hi.documentation, entryDoc_hover, hmd]⟩
  rw [C88_attribute_name void e' d cps roots n tag k.name x p hd hu h hn ht ha h1 h2 h3,
    attrAnswer_only ⟨hs.documentation, hs.references⟩ hdesc]
  · obtain ⟨q, q1, q2, t, q3, q4⟩ := hoff
    cases q3
    rw [hs.providers, hs.language]
    exact ⟨q, q1, q2.1, q4⟩
  · rw [hs.providers, hs.language]
    exact ho

/-- **C89.** The same for the values of attributes, if no participant has its own answer. -/
theorem C89_value (e : CompEnv) (e' : HoverEnv) (void : List Str) (d : TextDoc) (cps : List Nat) (roots : List Node) (n : Node)
    (tag attr v : Str) (k : ValueData) (x j : Nat) (i : CompItem) (p : Pos) (hs : SameData e e')
    (hmd : e'.supportsMarkdown = e.supportsMarkdown) (hi : ValueItem e k i) (hoff : k ∈ knownValues e tag attr)
    (hdesc : k.description ≠ none)
    (ho : ∀ q ∈ e.providers, q.isApplicable e.languageId = true → ∀ t ∈ q.provideValues tag attr, t.name = k.name →
      t.description ≠ none → t.description = k.description ∧ t.references = k.references)
    (hpart : ∀ q ∈ e'.participants, ∀ range, q.onAttributeValue tag attr k.name range = none)
    (hd : Lawful d) (hc : Columns d) (hp : Exact d p) (hu : Utf8 cps d.text)
    (h : parse e'.uni e'.caseSensitive void d.text = .ok roots) (hn : InForest roots n) (ht : n.tag = some tag)
    (ha : (attr, ⟨some v, x⟩) ∈ n.attributes) (hne : v ≠ []) (hw : WrittenAt d.text attr v x j) (hv : unquoted v k.name)
    (h1 : j ≤ d.offsetAt p) (h2 : d.offsetAt p ≤ j + v.length) (h3 : d.offsetAt p < n.startTagEnd.getD n.stop)
    (hent : ∀ k m, ¬ EntityAt d.text (d.offsetAt p) k m) :
    ∃ doc : Option Markup, doHover e' d p roots = .ok (doc.map fun m => ⟨m, some ⟨d.posAt j, d.posAt (j + v.length)⟩⟩) ∧
      i.documentation = doc.map .markup := by
  refine ⟨hoverDoc e'.supportsMarkdown k.description k.references, ?_, by rw [hi.documentation, entryDoc_hover, hmd]⟩
  rw [C88_attribute_value void e' d cps roots n tag attr v k.name x j p hd hc hp hu h hn ht ha hne hw hv h1 h2 h3 hent,
    valueAnswer_only ⟨hs.documentation, hs.references⟩ (fun q hq => hpart q hq _) hdesc]
  · obtain ⟨q, q1, q2⟩ := List.mem_flatMap.1 hoff
    obtain ⟨q3, q4⟩ := List.mem_filter.1 q1
    rw [hs.providers, hs.language]
    exact ⟨q, q3, (of_decide_eq_true q4).1, q2⟩
  · rw [hs.providers, hs.language]
    exact ho

/-- Hover with the data of `exDocsEnv`. -/
def exDocsHover (u : Uni) (cs : Bool) : HoverEnv :=
  { exHover cs with uni := u, providers := (exDocsEnv u cs).providers, languageId := (exDocsEnv u cs).languageId }

/-- The answer of a hover with these data. -/
def exDocsHoverAt (u : Uni) (cs : Bool) (src : Str) (o : Nat) : R (Option Str) := do
  let roots ← parse u cs [] src
  let h ← doHover (exDocsHover u cs) (exLine src) ⟨0, o⟩ roots
  .ok (h.map fun h => h.contents.value)

example (u : Uni) (cs : Bool) : SameData (exDocsEnv u cs) (exDocsHover u cs) := ⟨rfl, rfl, rfl, rfl⟩
example : exDocsHoverAt exUni false b!"<p class=c>" 1 = .ok (some b!"A paragraph.\n\nA: u\nB: v") := by krfl
example : exDocsHoverAt exUni false b!"<p class=c>" 3 = .ok (some b!"Names.\n\nA: u") := by krfl

/-- **C89 limit.** A value (or attribute) that has references and no description: the proposal shows the references, hover
shows nothing. -/
theorem C89_references_only_limit (u : Uni) (cs : Bool) :
    exProposals (exDocsEnv u cs) b!"<p a=>" 5 1 = .ok
      [⟨b!"c", some .unit, some (.markup ⟨false, b!"A: u\nB: v"⟩), some b!"\"c\"",
        some ⟨⟨⟨0, 5⟩, ⟨0, 5⟩⟩, b!"\"c\""⟩, some false, false⟩] ∧
    exDocsHoverAt u cs b!"<p a=c>" 5 = .ok none := by
  cases cs <;> exact ⟨by krfl, by krfl⟩

/-- Completion with two providers that know the element `p`. -/
def exTwiceEnv (u : Uni) (cs : Bool) : CompEnv :=
  { exDocsEnv u cs with
    providers := (exDocsEnv u cs).providers ++ [{ exProvider with
      provideTags := [⟨b!"p", some (.str b!"Other."), [], none, none⟩] }] }

/-- **C89 limit.** If two providers know an element, there are two proposals, each with its documentation, and hover shows
that of the first one only. -/
theorem C89_two_providers_limit (u : Uni) (cs : Bool) :
    (exProposals (exTwiceEnv u cs) b!"<p" 2 2).map (·.map (·.documentation)) = .ok
      [some (.markup ⟨true, b!"A paragraph.\n\n[A](u) | [B](v)"⟩), some (.markup ⟨true, b!"Other."⟩)] ∧
    (do let roots ← parse u cs [] b!"<p>"
        let h ← doHover { exDocsHover u cs with providers := (exTwiceEnv u cs).providers } (exLine b!"<p>") ⟨0, 1⟩ roots
        .ok (h.map (·.contents.value))) = (.ok (some b!"A paragraph.\n\nA: u\nB: v") : R (Option Str)) := by
  cases cs <;> exact ⟨by krfl, by krfl⟩

end Html.Props
