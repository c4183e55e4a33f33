import Verif.Proof.Builtin
import Verif.Props.Hover
import Verif.Props.LanguageFacts
import Verif.Props.Parser
import Verif.Props.TagProposals
import Verif.Props.ValueProposals

/-!
# The built-in data (C69, C70, C71)

`builtinData doc` is the built-in data with arbitrary texts `doc` of descriptions and references, `builtinEntities` the
table of character references.
-/

namespace Html.Props
open Html Html.Spec

/-! ### C69 -/

/-- C69: the void elements of the built-in data are those of HTML. -/
theorem C69_builtin (u : Uni) (doc : Nat → Str) (cs : Bool) (lang : Str) :
    (DataManager.new u (builtinData doc) true none cs).getVoidElements lang = htmlVoid := by krfl

/-- C69: custom providers can only add to them. -/
theorem C69_custom (u : Uni) (doc : Nat → Str) (cs : Bool) (ps : List Provider) (lang tag : Str) :
    isVoidElement tag ((DataManager.new u (builtinData doc) true (some ps) cs).getVoidElements lang) = true ↔
      tag ∈ htmlVoid ∨ ∃ p ∈ ps, p.isApplicable lang = true ∧ ∃ t ∈ p.provideTags, t.void = some true ∧ t.name = tag := by
  have h0 := C43_is_void_iff (DataManager.new u (builtinData doc) true none cs) lang tag
  rw [C69_builtin, isVoidElement, List.contains_iff_mem] at h0
  have e : (DataManager.new u (builtinData doc) true (some ps) cs).providers =
      (DataManager.new u (builtinData doc) true none cs).providers ++ ps := rfl
  rw [C43_is_void_iff, e, h0]
  constructor
  · rintro ⟨p, hp, h⟩
    rcases List.mem_append.1 hp with hp | hp
    · exact .inl ⟨p, hp, h⟩
    · exact .inr ⟨p, hp, h⟩
  · rintro (⟨p, hp, h⟩ | ⟨p, hp, h⟩)
    · exact ⟨p, List.mem_append_left _ hp, h⟩
    · exact ⟨p, List.mem_append_right _ hp, h⟩

/-- C69: in a tree made with the built-in data, such an element ends with its start tag; and an element that ends with
its start tag is such an element or written with `/>`. -/
theorem C69_parsed (u : Uni) (doc : Nat → Str) (cs cs' : Bool) (lang src : Str) (roots : List Node) (n : Node) (t : Str) (e : Nat)
    (h : parse u cs ((DataManager.new u (builtinData doc) true none cs').getVoidElements lang) src = .ok roots)
    (hn : InForest roots n) (ht : n.tag = some t) (he : n.startTagEnd = some e) :
    (t ∈ htmlVoid → n.closed = true ∧ n.endTagStart = none ∧ n.children = [] ∧ n.stop = e) ∧
    (n.closed = true → n.endTagStart = none → t ∈ htmlVoid ∨ At src (e - 2) b!"/>") := by
  rw [C69_builtin] at h
  have hd := parse_done h hn
  constructor
  · intro hv
    obtain ⟨h1, h2⟩ := hd.voidE t ht hv (by rw [he]; exact Option.some_ne_none _)
    obtain ⟨h3, h4, _⟩ := hd.cls h1 h2
    rw [he] at h3
    exact ⟨h1, h2, h4, (Option.some.inj h3).symm⟩
  · intro h1 h2
    obtain ⟨h3, _, h4⟩ := hd.cls h1 h2
    rw [he] at h3
    rw [Option.some.inj h3]
    rcases h4 with h4 | ⟨t', h4, h5⟩
    · exact .inr h4
    · rw [ht] at h4
      exact .inl (Option.some.inj h4 ▸ h5)

example : returns (parse exUni false htmlVoid b!"<p><img src=x>y<br></p>") (fun roots =>
    roots.map (fun n => n.children.map (fun m => (m.tag, m.start, m.stop, m.closed))) =
      [[(some b!"img", 3, 14, true), (some b!"br", 15, 19, true)]]) = true := by decide +kernel

/-! ### C70 -/

/-- C70: the tags have different names in lower case, and all have a description. -/
theorem C70_tags (doc : Nat → Str) :
    (Builtin.tags doc).length = 113 ∧ ((Builtin.tags doc).map (·.name)).Nodup ∧
    ∀ t ∈ Builtin.tags doc, LowerName t.name ∧ t.description ≠ none := by
  refine ⟨rfl, tags_nodup doc, fun t ht => ?_⟩
  obtain ⟨b, hb, e⟩ := of_sketch (tags_sketch doc) ht
  have key : ∀ b ∈ Builtin.tags noDoc, LowerName (tagSketch b).1 ∧ (tagSketch b).2.1 = true := by decide +kernel
  have := key b hb
  rw [e] at this
  exact ⟨this.1, fun h => by have h2 := this.2; simp [tagSketch, h] at h2⟩

/-- C70: the attributes have names in lower case; the value set of an attribute exists, except for `v`, which marks the
attributes that take no value. -/
theorem C70_attributes (doc : Nat → Str) (t : TagData) (ht : t ∈ Builtin.tags doc) (a : AttributeData)
    (ha : a ∈ t.attributes ++ Builtin.globals doc) :
    LowerName a.name ∧ a.values = none ∧
    ∀ s, a.valueSet = some s → s ≠ b!"v" → ∃ set ∈ Builtin.valueSets doc, set.name = s ∧ set.values ≠ [] := by
  have key : ∀ x : Str × Bool × Option Str × Bool,
      (x ∈ (Builtin.globals noDoc).map attrSketch ∨ ∃ b ∈ Builtin.tags noDoc, x ∈ (tagSketch b).2.2) →
      LowerName x.1 ∧ x.2.2.2 = true ∧
      ∀ s ∈ x.2.2.1, s ≠ b!"v" → ∃ y ∈ (Builtin.valueSets noDoc).map setSketch, y.1 = s ∧ y.2 ≠ [] := by
    have k1 : ∀ x ∈ (Builtin.globals noDoc).map attrSketch, LowerName x.1 ∧ x.2.2.2 = true ∧
      ∀ s ∈ x.2.2.1, s ≠ b!"v" → ∃ y ∈ (Builtin.valueSets noDoc).map setSketch, y.1 = s ∧ y.2 ≠ [] := by decide +kernel
    have k2 : ∀ b ∈ Builtin.tags noDoc, ∀ x ∈ (tagSketch b).2.2, LowerName x.1 ∧ x.2.2.2 = true ∧
      ∀ s ∈ x.2.2.1, s ≠ b!"v" → ∃ y ∈ (Builtin.valueSets noDoc).map setSketch, y.1 = s ∧ y.2 ≠ [] := by decide +kernel
    rintro x (hx | ⟨b, hb, hx⟩)
    · exact k1 x hx
    · exact k2 b hb x hx
  have := key (attrSketch a) (by
    rcases List.mem_append.1 ha with ha | ha
    · obtain ⟨b, hb, e⟩ := of_sketch (tags_sketch doc) ht
      refine .inr ⟨b, hb, ?_⟩
      rw [e]
      exact List.mem_map_of_mem ha
    · left
      rw [← globals_sketch doc]
      exact List.mem_map_of_mem ha)
  refine ⟨this.1, ?_, fun s hs hv => ?_⟩
  · have := this.2.1
    simpa [attrSketch] using this
  · obtain ⟨y, hy, h1, h2⟩ := this.2.2 s (by simpa [attrSketch] using hs) hv
    rw [← sets_sketch doc, List.mem_map] at hy
    obtain ⟨set, h3, rfl⟩ := hy
    exact ⟨set, h3, h1, fun e => h2 (by simp [setSketch, e])⟩

/-- C70: every tag of the data is found under its name, and without case sensitivity under its name in any case; other tags
have the global attributes only. -/
theorem C70_found (u : Uni) (id : Str) (doc : Nat → Str) (cs : Bool) (tag : Str) :
    (∀ t ∈ Builtin.tags doc, Written u cs tag t.name →
      (DataProvider.new id (builtinData doc) cs).provideAttributes u tag = .ok (t.attributes ++ Builtin.globals doc)) ∧
    ((∀ t ∈ Builtin.tags doc, ¬ Written u cs tag t.name) →
      (DataProvider.new id (builtinData doc) cs).provideAttributes u tag = .ok (Builtin.globals doc)) := by
  constructor
  · intro t ht hw
    rw [C45_attributes, show (builtinData doc).tags.getD [] = Builtin.tags doc from rfl, hw, lastNamed_mem (tags_nodup doc) ht]
    rfl
  · intro h
    rw [C45_attributes, show (builtinData doc).tags.getD [] = Builtin.tags doc from rfl,
      lastNamed_none (fun t ht e => h t ht e.symm)]
    rfl

/-- C70: the values of an attribute of a tag are those of the value sets of the attributes of this name. -/
theorem C70_values (u : Uni) (id : Str) (doc : Nat → Str) (cs : Bool) (tag attr : Str) (t : TagData)
    (ht : t ∈ Builtin.tags doc) (hw : Written u cs tag t.name) :
    ∃ r, (DataProvider.new id (builtinData doc) cs).provideValues u tag attr = .ok r ∧
      ∀ v, v ∈ r ↔ ∃ a ∈ t.attributes ++ Builtin.globals doc, Written u cs attr a.name ∧
        ∃ set ∈ Builtin.valueSets doc, a.valueSet = some set.name ∧ v ∈ set.values := by
  refine ⟨_, C45_values u id (builtinData doc) cs tag attr, fun v => ?_⟩
  rw [show (builtinData doc).tags.getD [] = Builtin.tags doc from rfl, hw, lastNamed_mem (tags_nodup doc) ht,
    show (builtinData doc).globalAttributes.getD [] = Builtin.globals doc from rfl,
    show (builtinData doc).valueSets.getD [] = Builtin.valueSets doc from rfl]
  simp only [Option.map_some, Option.getD_some, List.mem_flatMap, List.mem_filter, decide_eq_true_eq, and_assoc]
  constructor
  · rintro ⟨a, ha, he, hv⟩
    obtain ⟨hl, hnone, _⟩ := C70_attributes doc t ht a ha
    refine ⟨a, ha, ?_, ?_⟩
    · unfold Written
      rw [← he]
      cases cs
      · exact toLower_lowerName u hl
      · rfl
    · unfold valuesOfEntry at hv
      rw [hnone] at hv
      cases hs : a.valueSet with
      | none => rw [hs] at hv; simp at hv
      | some s =>
        rw [hs] at hv
        cases hf : lastNamed (·.name) (Builtin.valueSets doc) s with
        | none => simp [hf] at hv
        | some set =>
          obtain ⟨h1, h2⟩ := lastNamed_name hf
          refine ⟨set, h1, by rw [h2], ?_⟩
          simpa [hf] using hv
  · rintro ⟨a, ha, he, set, hset, hs, hv⟩
    obtain ⟨hl, hnone, _⟩ := C70_attributes doc t ht a ha
    refine ⟨a, ha, ?_, ?_⟩
    · rw [← show (if cs = true then attr else toLower u attr) = a.name from he] at hl ⊢
      cases cs
      · exact toLower_lowerName u hl
      · rfl
    · unfold valuesOfEntry
      rw [hs]
      simp only [lastNamed_mem (sets_nodup doc) hset]
      exact List.mem_append_right _ hv

/-- The environment of a hover with the built-in data knows exactly the tags of the data. -/
theorem builtin_tagAnswer {e : HoverEnv} {doc : Nat → Str} (he : e.providers = builtinProviders e.uni doc e.caseSensitive)
    (tag : Str) (range : Range) :
    (∀ t ∈ Builtin.tags doc, Written e.uni e.caseSensitive tag t.name →
      tagAnswer e tag range = some ⟨(docOf e t.description t.references).getD ⟨e.supportsMarkdown, []⟩, some range⟩) ∧
    ((∀ t ∈ Builtin.tags doc, ¬ Written e.uni e.caseSensitive tag t.name) → tagAnswer e tag range = none) := by
  have hk : ∀ p, p.provideTags = Builtin.tags doc →
      knownTag e tag p = lastNamed (·.name) (Builtin.tags doc) (if e.caseSensitive then tag else toLower e.uni tag) := by
    intro p hp
    unfold knownTag lastNamed
    rw [hp]
    congr 1
    apply List.filter_congr
    intro t ht
    have hl := ((C70_tags doc).2.2 t ht).1
    rw [decide_eq_decide]
    unfold SameTag
    rw [toLower_lowerName e.uni hl]
    cases e.caseSensitive
    · exact Iff.rfl
    · exact Iff.rfl
  have hp : (e.providers.filter (·.isApplicable e.languageId)).findSome? (knownTag e tag) =
      lastNamed (·.name) (Builtin.tags doc) (if e.caseSensitive then tag else toLower e.uni tag) := by
    rw [he]
    show ([(DataProvider.new b!"html5" (builtinData doc) e.caseSensitive).toProvider e.uni].filter _).findSome? _ = _
    have hf : [(DataProvider.new b!"html5" (builtinData doc) e.caseSensitive).toProvider e.uni].filter
        (·.isApplicable e.languageId) = [(DataProvider.new b!"html5" (builtinData doc) e.caseSensitive).toProvider e.uni] := rfl
    rw [hf, List.findSome?_cons, hk _ rfl]
    cases lastNamed (·.name) (Builtin.tags doc) (if e.caseSensitive then tag else toLower e.uni tag) <;> rfl
  unfold tagAnswer
  rw [hp]
  constructor
  · intro t ht hw
    rw [hw, lastNamed_mem (tags_nodup doc) ht]
    rfl
  · intro h
    rw [lastNamed_none (fun t ht e => h t ht e.symm)]
    rfl

/-- C70: with the cursor on the name in a start tag, hover shows the documentation of this tag if it is in the data (without
case sensitivity in any case), else nothing. -/
theorem C70_hover (cs : Bool) (void : List Str) (e : HoverEnv) (doc : Nat → Str) (d : TextDoc) (roots : List Node) (n : Node)
    (tag : Str) (he : e.providers = builtinProviders e.uni doc e.caseSensitive)
    (h : parse e.uni cs void d.text = .ok roots) (hm : InForest roots n) (ht : n.tag = some tag) :
    ∃ a, NameAt d.text (n.start + 1) tag a ∧
      ∀ p, Innermost roots n (d.offsetAt p) → BeforeEndTag n (d.offsetAt p) →
        a ≤ d.offsetAt p → d.offsetAt p ≤ a + tag.length →
        (∀ t ∈ Builtin.tags doc, Written e.uni e.caseSensitive tag t.name →
          doHover e d p roots = .ok (some ⟨(docOf e t.description t.references).getD ⟨e.supportsMarkdown, []⟩,
            some ⟨d.posAt a, d.posAt (a + tag.length)⟩⟩)) ∧
        ((∀ t ∈ Builtin.tags doc, ¬ Written e.uni e.caseSensitive tag t.name) → doHover e d p roots = .ok none) := by
  obtain ⟨a, ha, hp⟩ := C42_start_tag_name cs void e d roots n tag h hm ht
  refine ⟨a, ha, fun p h1 h2 h3 h4 => ?_⟩
  rw [hp p h1 h2 h3 h4]
  obtain ⟨k1, k2⟩ := builtin_tagAnswer he tag ⟨d.posAt a, d.posAt (a + tag.length)⟩
  exact ⟨fun t ht hw => by rw [k1 t ht hw], fun hw => by rw [k2 hw]⟩

/-- C70: this documentation is not empty if documentation is wanted and the texts are not empty. -/
theorem C70_documented (e : HoverEnv) (doc : Nat → Str) (t : TagData) (ht : t ∈ Builtin.tags doc) (hd : ∀ k, doc k ≠ [])
    (hw : e.documentation = true) : ∃ m, docOf e t.description t.references = some m ∧ m.value ≠ [] := by
  have key : (Builtin.tags doc).map (fun t => t.description.map Description.text) =
      (Builtin.tags (fun k => [k])).map (fun t => t.description.map fun x => doc (x.text.headD 0)) := by krfl
  have hm := List.mem_map_of_mem (f := fun t => t.description.map Description.text) ht
  rw [key, List.mem_map] at hm
  obtain ⟨t', _, e'⟩ := hm
  have hne : Spec.shownDescription t.description ⟨e.documentation, e.references, e.supportsMarkdown⟩ ≠ [] := by
    cases hd' : t.description with
    | none => exact absurd hd' ((C70_tags doc).2.2 t ht).2
    | some x =>
      rw [hd'] at e'
      cases ht' : t'.description with
      | none => rw [ht'] at e'; cases e'
      | some y =>
        rw [ht'] at e'
        have hx : doc (y.text.headD 0) = x.text := Option.some.inj e'
        have hx2 := hd (y.text.headD 0)
        rw [hx] at hx2
        rw [hw]
        cases x <;> exact hx2
  cases hg : docOf e t.description t.references with
  | none => exact absurd ((C46_none_iff _ _ _).1 hg).1 hne
  | some m =>
    refine ⟨m, rfl, ?_⟩
    unfold docOf generateDocumentation at hg
    dsimp only at hg
    split at hg
    · rename_i hl
      rw [← Option.some.inj hg]
      exact fun h0 => absurd hl (by rw [show docReferences _ _ _ = [] from h0]; simp)
    · cases hg

/-! Attributes -/

theorem getLast?_filter_append {α : Type} (p : α → Bool) (l l' : List α) :
    ((l ++ l').filter p).getLast? = ((l'.filter p).getLast?).or ((l.filter p).getLast?) := by
  rw [List.filter_append, List.getLast?_append]

theorem filter_name {α : Type} {name : α → Str} {l : List α} {a : α} (hn : (l.map name).Nodup) (ha : a ∈ l) (p : α → Prop)
    [DecidablePred p] (hp : p a) : (l.filter (fun x => decide (name x = name a ∧ p x))).getLast? = some a := by
  have h := lastNamed_mem hn ha
  unfold lastNamed at h
  have : (l.filter (fun x => decide (name x = name a ∧ p x))) = (l.filter (fun x => decide (name x = name a))).filter (fun x => decide (p x)) := by
    rw [List.filter_filter]
    apply List.filter_congr
    intro x _
    by_cases h1 : name x = name a <;> by_cases h2 : p x <;> simp [h1, h2]
  rw [this]
  cases hl : l.filter (fun x => decide (name x = name a)) with
  | nil => rw [hl] at h; cases h
  | cons b t =>
    rw [hl] at h
    obtain ⟨ys, e⟩ := List.getLast?_eq_some_iff.1 h
    rw [e, List.filter_append, List.filter_cons, if_pos (by simpa using hp)]
    simp

theorem builtin_attrAnswer {e : HoverEnv} {doc : Nat → Str} (he : e.providers = builtinProviders e.uni doc e.caseSensitive)
    (tag attr : Str) (o : Nat) (range : Range) (own : List AttributeData)
    (hown : (DataProvider.new b!"html5" (builtinData doc) e.caseSensitive).provideAttributes e.uni tag =
      .ok (own ++ Builtin.globals doc)) :
    (∀ a ∈ Builtin.globals doc, a.name = attr → a.description ≠ none →
      attrAnswer e tag attr o range = (docOf e a.description a.references).map (⟨·, some range⟩)) ∧
    ((∀ a ∈ Builtin.globals doc, a.name = attr → a.description = none) →
      attrAnswer e tag attr o range = (((own.filter fun a => a.name = attr ∧ a.description ≠ none).getLast?).bind
        fun a => docOf e a.description a.references).map (⟨·, some range⟩)) := by
  have h0 : attrAnswer e tag attr o range = ((((own ++ Builtin.globals doc).filter fun a => a.name = attr ∧ a.description ≠ none).getLast?).bind
        fun a => docOf e a.description a.references).map (⟨·, some range⟩) := by
    unfold attrAnswer
    rw [he]
    have hf : (builtinProviders e.uni doc e.caseSensitive).filter
        (·.isApplicable e.languageId) = [(DataProvider.new b!"html5" (builtinData doc) e.caseSensitive).toProvider e.uni] := rfl
    rw [hf, List.findSome?_cons]
    have hp : ((DataProvider.new b!"html5" (builtinData doc) e.caseSensitive).toProvider e.uni).provideAttributes tag o =
        own ++ Builtin.globals doc := by
      show ((DataProvider.new b!"html5" (builtinData doc) e.caseSensitive).provideAttributes e.uni tag).toOption.getD [] = _
      rw [hown]
      rfl
    unfold attrDoc
    rw [hp]
    cases ((List.filter (fun a => decide (a.name = attr ∧ a.description ≠ none)) (own ++ Builtin.globals doc)).getLast?).bind
        fun a => docOf e a.description a.references <;> rfl
  rw [h0, getLast?_filter_append]
  constructor
  · rintro a ha rfl hd
    rw [filter_name (name := AttributeData.name) (globals_nodup doc) ha (fun x => x.description ≠ none) hd]
    rfl
  · intro h
    rw [show (Builtin.globals doc).filter (fun a => decide (a.name = attr ∧ a.description ≠ none)) = [] from by
      rw [List.filter_eq_nil_iff]
      intro a ha
      simp only [decide_eq_true_eq]
      exact fun h1 => h1.2 (h a ha h1.1)]
    rfl

/-- C70: with the cursor on the name of an attribute of a tag of the data, hover shows the documentation of the global
attribute of this name if there is one, else that of the last attribute of this name that the data has for the tag. -/
theorem C70_hover_attribute (u : Uni) (cs : Bool) (void : List Str) (cps : List Nat) (e : HoverEnv) (doc : Nat → Str)
    (d : TextDoc) (roots : List Node) (n : Node) (tag : Str) (entry : TagData) (ts : List Tok) (t : Tok) (p : Pos) (hl : Lawful d)
    (hu : Utf8 cps d.text) (h : parse u cs void d.text = .ok roots) (hn : Innermost roots n (d.offsetAt p))
    (ht : n.tag = some tag) (hb : BeforeEndTag n (d.offsetAt p))
    (hts : tokens ⟨e.uni, d.text, false, e.caseSensitive⟩ (.new n.start .WithinContent) = .ok ts)
    (hmem : t ∈ ts) (hk : t.type = .AttributeName) (hto : Touches (d.offsetAt p) t)
    (he : e.providers = builtinProviders e.uni doc e.caseSensitive) (hent : entry ∈ Builtin.tags doc)
    (hw : Written e.uni e.caseSensitive tag entry.name) :
    (∀ a ∈ Builtin.globals doc, a.name = text d.text t → a.description ≠ none →
      doHover e d p roots = .ok ((docOf e a.description a.references).map (⟨·, some ⟨d.posAt t.offset, d.posAt t.stop⟩⟩))) ∧
    ((∀ a ∈ Builtin.globals doc, a.name = text d.text t → a.description = none) →
      doHover e d p roots = .ok ((((entry.attributes.filter fun a => a.name = text d.text t ∧ a.description ≠ none).getLast?).bind
        fun a => docOf e a.description a.references).map (⟨·, some ⟨d.posAt t.offset, d.posAt t.stop⟩⟩))) := by
  rw [C42_attribute_name u cs void cps e d roots n tag ts t p hl hu h hn ht hb hts hmem hk hto]
  obtain ⟨k1, k2⟩ := builtin_attrAnswer he tag (text d.text t) (d.offsetAt p) ⟨d.posAt t.offset, d.posAt t.stop⟩ entry.attributes
    ((C70_found e.uni b!"html5" doc e.caseSensitive tag).1 entry hent hw)
  exact ⟨fun a h1 h2 h3 => by rw [k1 a h1 h2 h3], fun h1 => by rw [k2 h1]⟩

theorem mem_tags {doc : Nat → Str} {t : TagData} (i : Nat) (h : (Builtin.tags doc)[i]? = some t) : t ∈ Builtin.tags doc :=
  List.mem_of_getElem? h

/-- C70: so the documentation that the data has for `title` on `link`, for one, is not shown, but that of the global
attribute of this name. -/
theorem C70_hides_documentation (e : HoverEnv) (doc : Nat → Str) (o : Nat) (range : Range)
    (he : e.providers = builtinProviders e.uni doc e.caseSensitive) :
    (∃ t ∈ Builtin.tags doc, t.name = b!"link" ∧ ⟨b!"title", some (.str (doc 31)), none, none, none⟩ ∈ t.attributes) ∧
    attrAnswer e b!"link" b!"title" o range =
      (docOf e (some (.markup (doc 671))) (some [⟨doc 672, doc 673⟩])).map (⟨·, some range⟩) := by
  refine ⟨⟨Builtin.tag_link doc, mem_tags 4 rfl, rfl, List.mem_of_getElem? (i := 12) rfl⟩, ?_⟩
  have hw : Written e.uni e.caseSensitive b!"link" (Builtin.tag_link doc).name := by
    unfold Written
    cases e.caseSensitive <;> rfl
  obtain ⟨k1, _⟩ := builtin_attrAnswer he b!"link" b!"title" o range (Builtin.tag_link doc).attributes
    ((C70_found e.uni b!"html5" doc e.caseSensitive b!"link").1 _ (mem_tags 4 rfl) hw)
  exact k1 ⟨b!"title", some (.markup (doc 671)), none, none, some [⟨doc 672, doc 673⟩]⟩ (List.mem_of_getElem? (i := 25) rfl) rfl
    (by simp)

/-- C70: with the cursor in or behind the name of a start tag, the proposals are the tags of the data, each once. -/
theorem C70_proposed (e : CompEnv) (doc : Nat → Str) (void : List Str) (d : TextDoc) (position : Pos) (roots : List Node)
    (pre post : List Tok) (t : Tok) (o : Nat) (r : List CompItem)
    (he : e.providers = builtinProviders e.uni doc e.caseSensitive)
    (hs : ∀ c, e.settings = some c → c.provider.find b!"html5" ≠ some false)
    (h : parse e.uni e.caseSensitive void d.text = .ok roots)
    (ht : tokens (parserCfg e.uni e.caseSensitive d.text) (.new 0 .WithinContent) = .ok (pre ++ t :: post))
    (ho : d.offsetAt position = o) (h1 : t.offset < o) (h2 : o ≤ t.stop) (hk : t.type = .StartTag)
    (hr : doComplete e d position roots = .ok r) :
    edits r = ((Builtin.tags doc).map fun k => (k.name, some ⟨⟨d.posAt t.offset, d.posAt t.stop⟩, k.name⟩)) ∧
    (labels r).Nodup := by
  have hkn : knownTags e = Builtin.tags doc := by
    unfold knownTags
    rw [he]
    have : (builtinProviders e.uni doc e.caseSensitive).filter (Enabled e ·) =
        [(DataProvider.new b!"html5" (builtinData doc) e.caseSensitive).toProvider e.uni] := by
      show [(DataProvider.new b!"html5" (builtinData doc) e.caseSensitive).toProvider e.uni].filter _ = _
      have hen : Enabled e ((DataProvider.new b!"html5" (builtinData doc) e.caseSensitive).toProvider e.uni) := ⟨rfl, hs⟩
      rw [List.filter_cons, if_pos (decide_eq_true hen)]
      rfl
    rw [this, List.flatMap_cons, List.flatMap_nil, List.append_nil]
    rfl
  have key := C58_in_name e void d position roots pre post t o r h ht ho h1 h2 hk hr
  rw [hkn] at key
  refine ⟨key, ?_⟩
  have : labels r = (Builtin.tags doc).map (·.name) := by
    have := congrArg (List.map Prod.fst) key
    simpa [edits, labels, List.map_map, Function.comp_def] using this
  rw [this]
  exact tags_nodup doc

/-- C70: the value set of `role` has `region` twice, so it is proposed twice as a value. -/
theorem C70_region_twice (u : Uni) (id : Str) (doc : Nat → Str) (cs : Bool) :
    ∃ r, (DataProvider.new id (builtinData doc) cs).provideValues u b!"div" b!"role" = .ok r ∧
      (r.map (·.name)).count b!"region" = 2 := by
  refine ⟨(Builtin.set_roles doc).values, ?_, ?_⟩
  · cases cs <;> krfl
  · have : ((Builtin.set_roles doc).values.map (·.name)).count b!"region" =
        ((Builtin.set_roles noDoc).values.map (·.name)).count b!"region" := by krfl
    rw [this]
    decide +kernel

example (u : Uni) (doc : Nat → Str) : Written u false b!"TaBle" (Builtin.tag_table doc).name ∧
    Builtin.tag_table doc ∈ Builtin.tags doc ∧ ¬ Written u true b!"TaBle" (Builtin.tag_table doc).name :=
  ⟨rfl, mem_tags 78 rfl, by simp [Written, Builtin.tag_table]⟩

/-! ### C71 -/

/-- C71: the names in the table are different, and consist of letters and digits, perhaps with a semicolon at the end. -/
theorem C71_names : (builtinEntities.map (·.1)).Nodup ∧
    ∀ x ∈ builtinEntities, ∃ n, n ≠ [] ∧ (∀ b ∈ n, alnum b) ∧ (x.1 = n ∨ x.1 = n ++ b!";") := by
  refine ⟨entities_nodup, ?_⟩
  have key : ∀ x ∈ builtinEntities, (x.1 ≠ [] ∧ ∀ b ∈ x.1, alnum b) ∨
      (x.1.dropLast ≠ [] ∧ (∀ b ∈ x.1.dropLast, alnum b) ∧ x.1 = x.1.dropLast ++ b!";") := by decide +kernel
  intro x hx
  rcases key x hx with ⟨h1, h2⟩ | ⟨h1, h2, h3⟩
  · exact ⟨x.1, h1, h2, .inl rfl⟩
  · exact ⟨x.1.dropLast, h1, h2, .inr h3⟩

/-- C71: a name without semicolon is in the table with a semicolon too, for the same text. -/
theorem C71_semicolon (x : Str × Str) (hx : x ∈ builtinEntities) (h : x.1.getLast? ≠ some 59) :
    (x.1 ++ b!";", x.2) ∈ builtinEntities := by
  have key : ∀ x ∈ builtinEntities.filter (fun x => x.1.getLast? != some 59), (x.1 ++ b!";", x.2) ∈ builtinEntities := by
    decide +kernel
  exact key x (List.mem_filter.2 ⟨hx, by simpa using h⟩)

/-- C71: every text in the table is one or two characters. -/
theorem C71_texts (x : Str × Str) (hx : x ∈ builtinEntities) : ∃ cps, Utf8 cps x.2 ∧ (cps.length = 1 ∨ cps.length = 2) := by
  have key : ∀ x ∈ builtinEntities, ((∀ c ∈ codePoints x.2, c < 0x110000) ∧ x.2 = (codePoints x.2).flatMap encodeCP) ∧
      ((codePoints x.2).length = 1 ∨ (codePoints x.2).length = 2) := by decide +kernel
  exact ⟨codePoints x.2, (key x hx).1, (key x hx).2⟩

/-- C71: for a single character hover shows its number with at least four hexadecimal digits. -/
theorem C71_code (c : Nat) (h : c < 0x110000) :
    ∃ ds, entityCode (encodeCP c) = b!"U+" ++ ds ∧ HexDigits ds ∧ hexValue ds = c ∧ 4 ≤ ds.length := by
  have hc : codePoints (encodeCP c) = [c] := by
    have := codePoints_encodeCP h []
    rwa [List.append_nil] at this
  obtain ⟨h1, h2, h3⟩ := hexDigits_spec 8 c (by omega) (by omega)
  have h4 : HexDigits (hex2 c) ∧ hexValue (hex2 c) = c := by
    unfold hex2
    split
    · refine ⟨fun b hb => ?_, ?_⟩
      · rcases List.mem_cons.1 hb with rfl | hb
        · omega
        · exact h1 b hb
      · exact (hexValue_zero _ 1).trans h2
    · exact ⟨h1, h2⟩
  refine ⟨List.replicate (4 - (hex2 c).length) 48 ++ hex2 c, ?_, ?_, ?_, ?_⟩
  · unfold entityCode
    rw [hc]
    simp
  · intro b hb
    rcases List.mem_append.1 hb with hb | hb
    · have := (List.mem_replicate.1 hb).2
      omega
    · exact h4.1 b hb
  · rw [hexValue_zero]
    exact h4.2
  · simp only [List.length_append, List.length_replicate]
    omega

/-- C71: for two characters the digits of both run together: `&acE;` is `U+223E` and `U+0333`. -/
theorem C71_code_of_two : (b!"acE;", encodeCP 0x223E ++ encodeCP 0x333) ∈ builtinEntities ∧
    entityCode (encodeCP 0x223E ++ encodeCP 0x333) = b!"U+223E333" := by
  refine ⟨?_, by decide +kernel⟩
  exact List.mem_of_getElem? (i := 8) (by krfl)

/-- C71: with the cursor on a character reference, with or without a semicolon, hover shows its text and its number, whatever
the order of the table; for other names it shows nothing. -/
theorem C71_hover (u : Uni) (cs : Bool) (void : List Str) (e : HoverEnv) (d : TextDoc)
    (roots : List Node) (n : Node) (tag : Str) (ts : List Tok) (k m : Nat) (p : Pos)
    (hc : Columns d) (hp : Exact d p)
    (h : parse u cs void d.text = .ok roots) (hn : Innermost roots n (d.offsetAt p))
    (ht : n.tag = some tag) (hb : BeforeEndTag n (d.offsetAt p))
    (hts : tokens ⟨e.uni, d.text, false, e.caseSensitive⟩ (.new n.start .WithinContent) = .ok ts)
    (hno : ∀ t ∈ ts, t.type = .StartTag ∨ t.type = .AttributeName → ¬ Touches (d.offsetAt p) t)
    (hent : EntityAt d.text (d.offsetAt p) k m) (he : e.entities.Perm builtinEntities) :
    (∀ x, (bytesIn d.text k (k + m) ++ b!";", x) ∈ builtinEntities →
      doHover e d p roots = .ok (some ⟨⟨false, b!"Character entity representing '" ++ x ++ b!"', unicode equivalent '" ++
        entityCode x ++ b!"'"⟩, some ⟨d.posAt k, d.posAt (if d.text[k + m]? = some 59 then k + m + 1 else k + m)⟩⟩)) ∧
    ((∀ x, (bytesIn d.text k (k + m) ++ b!";", x) ∉ builtinEntities) → doHover e d p roots = .ok none) := by
  rw [C42_entity u cs void e d roots n tag ts k m p hc hp h hn ht hb hts hno hent]
  unfold entityAnswer
  constructor
  · intro x hx
    rw [find?_perm he entities_nodup hx rfl]
    rfl
  · intro hx
    rw [List.find?_eq_none.2]
    · rfl
    · intro y hy
      simp only [decide_eq_true_eq]
      intro hk
      exact hx y.2 (by rw [← hk]; exact he.mem_iff.1 hy)

/-- C71: behind `&` and letters and digits in content, each name with a semicolon is proposed once. -/
theorem C71_proposed (e : CompEnv) (void : List Str) (d : TextDoc) (cps : List Nat) (position : Pos)
    (roots : List Node) (n : Node) (pre post : List Tok) (t : Tok) (o k : Nat) (r : List CompItem)
    (hu : Utf8 cps d.text) (hc : Columns d) (hp : Exact d position)
    (h : parse e.uni e.caseSensitive void d.text = .ok roots)
    (ht : tokens (parserCfg e.uni e.caseSensitive d.text) (.new 0 .WithinContent) = .ok (pre ++ t :: post))
    (ho : d.offsetAt position = o) (h1 : t.offset < o) (h2 : o ≤ t.stop) (hk : t.type = .Content)
    (hn : InForest roots n) (hno : n.start < o) (hr : doComplete e d position roots = .ok r)
    (hs : RefStart d.text o k) (he : e.entities.Perm builtinEntities) (hpart : e.participants = []) :
    (labels r).Nodup ∧
    ∀ l, l ∈ edits r ↔ ∃ x ∈ builtinEntities, x.1.getLast? = some 59 ∧
      l = (b!"&" ++ x.1, some ⟨⟨d.posAt k, position⟩, b!"&" ++ x.1⟩) := by
  obtain ⟨refs, hr1, hr2, _⟩ := C61_in_content e void d cps position roots n pre post t o r hu hc hp h ht ho h1 h2 hk hn hno hr
  rw [hpart] at hr1
  have hr1 : r = refs := hr1
  subst hr1
  have key := hr2 k hs
  constructor
  · have e1 : labels r = (e.entities.filter fun a => a.1.getLast? == some 59).map fun a => b!"&" ++ a.1 := by
      have := congrArg (List.map Prod.fst) key
      simpa [edits, labels, List.map_map, Function.comp_def] using this
    rw [e1]
    have h3 : (e.entities.map (·.1)).Nodup := (he.map _).nodup_iff.2 entities_nodup
    have h4 : ((e.entities.filter fun a => a.1.getLast? == some 59).map (·.1)).Nodup :=
      h3.sublist (List.filter_sublist.map _)
    have h5 : ((e.entities.filter fun a => a.1.getLast? == some 59).map fun a => b!"&" ++ a.1) =
        ((e.entities.filter fun a => a.1.getLast? == some 59).map (·.1)).map (b!"&" ++ ·) := by
      rw [List.map_map]
      rfl
    rw [h5]
    exact h4.map (b!"&" ++ ·) (fun a b hab heq => hab (by simpa using heq))
  · intro l
    rw [key]
    simp only [List.mem_map, List.mem_filter, he.mem_iff, beq_iff_eq, and_assoc]
    constructor
    · rintro ⟨x, h1, h2, rfl⟩
      exact ⟨x, h1, h2, rfl⟩
    · rintro ⟨x, h1, h2, rfl⟩
      exact ⟨x, h1, h2, rfl⟩

/-- C71: some references of HTML are missing in the table, such as `&cups;` and `&Afr;`. -/
theorem C71_missing (x : Str) : (b!"cups;", x) ∉ builtinEntities ∧ (b!"Afr;", x) ∉ builtinEntities := by
  have key : ∀ x ∈ builtinEntities, x.1 ≠ b!"cups;" ∧ x.1 ≠ b!"Afr;" := by decide +kernel
  exact ⟨fun h => (key _ h).1 rfl, fun h => (key _ h).2 rfl⟩

example : EntityAt b!"<p>&am</p>" 5 4 2 := by
  refine ⟨by decide, by decide, by decide, by decide, fun i h1 h2 => ?_, fun b h => ?_⟩
  · have : i = 4 ∨ i = 5 := by omega
    rcases this with rfl | rfl
    · exact ⟨97, rfl, by decide⟩
    · exact ⟨109, rfl, by decide⟩
  · cases h
    decide

example : (b!"amp;", b!"&") ∈ builtinEntities ∧ (b!"amp", b!"&") ∈ builtinEntities := by
  constructor <;> decide +kernel

end Html.Props
