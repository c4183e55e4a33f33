import Verif.Proof.LanguageFacts

/-!
# Language facts: C43, C44, C45, C46
-/

namespace Html.Props
open Html

/-! ### C43: void elements -/

/-- **C43.** `get_void_elements` returns, with multiplicity, the names that the providers
applicable to the language mark as void. -/
theorem C43_void_elements (m : DataManager) (lang : Str) :
    (m.getVoidElements lang).Perm
      ((m.providers.filter (·.isApplicable lang)).flatMap Spec.voidNames) := by
  unfold DataManager.getVoidElements
  rw [← voidTags_eq]
  exact strSort_perm _

/-- **C43.** The list is sorted (lexicographic order of the bytes). -/
theorem C43_sorted (m : DataManager) (lang : Str) :
    (m.getVoidElements lang).Pairwise (· ≤ ·) := strSort_sorted _

/-- **C43.** A tag counts as void exactly if an applicable provider has an entry of that
name that is marked as void. -/
theorem C43_is_void_iff (m : DataManager) (lang tag : Str) :
    isVoidElement tag (m.getVoidElements lang) = true ↔
      ∃ p ∈ m.providers, p.isApplicable lang = true ∧
        ∃ t ∈ p.provideTags, t.void = some true ∧ t.name = tag := by
  unfold isVoidElement
  rw [List.contains_iff_mem, (C43_void_elements m lang).mem_iff]
  simp only [List.mem_flatMap, List.mem_filter, Spec.voidNames, List.mem_map,
    decide_eq_true_eq, and_assoc]

/-- **C43.** Setting the providers forgets the ones set before: the manager knows the
built-in data (if asked for) followed by the given providers, and nothing else. -/
theorem C43_set_replaces (u : Uni) (data : HTMLData) (m : DataManager) (builtIn : Bool)
    (ps : List Provider) (lang : Str) :
    ((m.setDataProviders u data builtIn ps).getVoidElements lang).Perm
      ((if builtIn then ((data.tags.getD []).filter (fun t => t.void = some true)).map (·.name) else []) ++
        (ps.filter (·.isApplicable lang)).flatMap Spec.voidNames) := by
  refine (C43_void_elements _ lang).trans ?_
  unfold DataManager.setDataProviders
  cases builtIn
  · simp
  · simp only [if_true, List.cons_append, List.nil_append]
    rw [List.filter_cons_of_pos (by rfl), List.flatMap_cons]
    exact .refl _

section
private def exTag (name : Str) (void : Option Bool) : TagData := ⟨name, none, [], none, void⟩
private def exProvider (lang : Str) : Provider :=
  ⟨b!"p", fun l => l == lang, [exTag (b!"x") (some true), exTag (b!"a") (some false),
    exTag (b!"c") none, exTag (b!"b") (some true)], fun _ _ => [], fun _ _ => []⟩

/-- Only applicable providers and only entries marked as void count; the result is
sorted. -/
example : DataManager.getVoidElements
    ⟨[exProvider (b!"html"), exProvider (b!"vue"), exProvider (b!"html")], true⟩ (b!"html")
    = [b!"b", b!"b", b!"x", b!"x"] := by decide
end

/-! ### C44: path attributes -/

/-- **C44.** The path attributes are `src` and `href` on every element, and the pairs of
the table. -/
theorem C44_path_attribute_iff (tag attr : Str) :
    isPathAttribute tag attr = true ↔
      attr = b!"src" ∨ attr = b!"href" ∨ (tag, attr) ∈ Spec.pathPairs := by
  unfold isPathAttribute
  by_cases hs : attr = b!"src"
  · simp [hs]
  · by_cases hh : attr = b!"href"
    · simp [hh]
    · have h1 : [b!"src", b!"href"].contains attr = false := by
        simp [hs, hh]
      simp only [h1, hs, hh, false_or, Bool.false_eq_true, if_false]
      have hp : Spec.pathPairs = (pathTagAndAttr.flatMap (fun e => e.2.map (fun x => (e.1, x)))).filter
          (fun e => e.2 ≠ b!"src" ∧ e.2 ≠ b!"href") := by decide
      rw [hp, List.mem_filter]
      simp only [hs, hh, ne_eq, not_false_eq_true, and_self, decide_true, and_true, List.mem_flatMap,
        List.mem_map, Prod.mk.injEq]
      cases hf : HMap.find pathTagAndAttr tag with
      | none =>
        simp only [Bool.false_eq_true, false_iff]
        rintro ⟨e, he, x, _, h1, _⟩
        exact absurd h1 (HMap.find_none hf e he)
      | some l =>
        simp only [List.contains_iff_mem]
        constructor
        · intro h
          exact ⟨_, HMap.find_mem hf, attr, h, rfl, rfl⟩
        · rintro ⟨e, he, x, hx, hk, rfl⟩
          rw [HMap.find_unique (by decide) he hk] at hf
          cases hf
          exact hx

example : isPathAttribute (b!"video") (b!"poster") = true ∧ isPathAttribute (b!"a") (b!"poster") = false ∧
    isPathAttribute (b!"my-tag") (b!"src") = true := by decide

/-! ### C45: provider lookups -/

/-- **C45.** The attributes of a tag: those of the last entry with that name (none if
there is no such entry), then all global ones.  Without case sensitivity the
lower-cased name is looked up. -/
theorem C45_attributes (u : Uni) (id : Str) (data : HTMLData) (cs : Bool) (tag : Str) :
    (DataProvider.new id data cs).provideAttributes u tag =
      .ok (((Spec.lastNamed (·.name) (data.tags.getD []) (if cs then tag else toLower u tag)).map
          (·.attributes)).getD [] ++ data.globalAttributes.getD []) := by
  unfold DataProvider.provideAttributes
  rw [entry_new]
  cases Spec.lastNamed (fun x => x.name) (data.tags.getD []) (if cs = true then tag else toLower u tag) <;> rfl

/-- **C45.** The values of an attribute: those of the attribute entries of that name of
the tag, then those of the global attributes of that name, in the order of the data. -/
theorem C45_values (u : Uni) (id : Str) (data : HTMLData) (cs : Bool) (tag attr : Str) :
    (DataProvider.new id data cs).provideValues u tag attr =
      .ok ((((((Spec.lastNamed (·.name) (data.tags.getD []) (if cs then tag else toLower u tag)).map
            (·.attributes)).getD [] ++ data.globalAttributes.getD []).filter
          (fun a => (if cs then a.name else toLower u a.name) = (if cs then attr else toLower u attr)))).flatMap
        (Spec.valuesOfEntry (data.valueSets.getD []))) := by
  unfold DataProvider.provideValues
  rw [entry_new]
  have hq : (DataProvider.new id data cs).query u attr = (if cs then attr else toLower u attr) := rfl
  have hg : (DataProvider.new id data cs).globalAttributes = data.globalAttributes.getD [] := rfl
  rw [hq, hg, List.filter_append, List.flatMap_append]
  simp only [← valuesOf_new u id data cs]
  cases Spec.lastNamed (fun x => x.name) (data.tags.getD []) (if cs = true then tag else toLower u tag) <;> rfl

/-- **C45.** The lookups never panic, whatever the data. -/
theorem C45_no_panic (u : Uni) (id : Str) (data : HTMLData) (cs : Bool) (tag attr : Str) :
    (∃ r, (DataProvider.new id data cs).provideAttributes u tag = .ok r) ∧
      (∃ r, (DataProvider.new id data cs).provideValues u tag attr = .ok r) :=
  ⟨⟨_, C45_attributes u id data cs tag⟩, ⟨_, C45_values u id data cs tag attr⟩⟩

/-- **C45.** A consequence for custom data: without case sensitivity an entry whose tag
name contains an upper-case letter is never found, not even under its own name. -/
theorem C45_uppercase_entry_lost (u : Uni) (id : Str) (data : HTMLData) (tag : Str) (ht : isAscii tag)
    (hup : ∀ t ∈ data.tags.getD [], ∃ b ∈ t.name, 65 ≤ b ∧ b ≤ 90) :
    (DataProvider.new id data false).provideAttributes u tag = .ok (data.globalAttributes.getD []) := by
  rw [C45_attributes]
  cases h : Spec.lastNamed (fun x => x.name) (data.tags.getD []) (if false = true then tag else toLower u tag) with
  | none => rfl
  | some t =>
    obtain ⟨hm, hn⟩ := lastNamed_name h
    obtain ⟨b, hb, hr⟩ := hup t hm
    exact absurd hr (toLower_no_upper u ht b (by rw [hn] at hb; exact hb))

section
private def v (x : Str) : ValueData := ⟨x, none, none⟩
private def exData : HTMLData :=
  ⟨some [⟨b!"a", none, [⟨b!"old", none, none, none, none⟩], none, none⟩,
      ⟨b!"Up", none, [⟨b!"lost", none, none, none, none⟩], none, none⟩,
      ⟨b!"a", none, [⟨b!"Rel", none, some (b!"s"), some [v (b!"1")], none⟩], none, none⟩],
    some [⟨b!"rel", none, some (b!"none"), some [v (b!"2")], none⟩],
    some [⟨b!"s", [v (b!"x")]⟩, ⟨b!"s", [v (b!"y")]⟩]⟩

/-- The last entry of a tag and the last value set of a name win; names are compared
without case. -/
example (u : Uni) : (DataProvider.new (b!"i") exData false).provideValues u (b!"A") (b!"REL") =
    .ok [v (b!"1"), v (b!"y"), v (b!"2")] := by rfl

example (u : Uni) : (DataProvider.new (b!"i") exData true).provideValues u (b!"a") (b!"rel") =
    .ok [v (b!"2")] := by rfl

/-- The entry `Up` is not found without case sensitivity. -/
example (u : Uni) : (DataProvider.new (b!"i") exData false).provideAttributes u (b!"Up") =
    .ok (exData.globalAttributes.getD []) := by rfl
end

/-! ### C46: documentation -/

/-- **C46.** No documentation is generated exactly if there is nothing to show. -/
theorem C46_none_iff (description : Option Description) (references : Option (List Reference)) (s : DocSetting) :
    generateDocumentation description references s = none ↔
      Spec.shownDescription description s = [] ∧ Spec.shownReferences references s = [] := by
  have hd : docDescription description s = Spec.shownDescription description s := by
    unfold docDescription Spec.shownDescription
    cases description with
    | none => rfl
    | some d => cases d <;> cases s.documentation <;> rfl
  unfold generateDocumentation
  rw [hd]
  generalize Spec.shownDescription description s = v
  unfold docReferences Spec.shownReferences
  cases references with
  | none => cases v <;> simp
  | some rs =>
    cases hs : s.references with
    | false => cases v <;> simp
    | true =>
      cases rs with
      | nil => cases v <;> simp
      | cons r rs =>
        have h1 : ∀ m sep, (join sep ((r :: rs).map (·.format m))).length > 0 := fun m sep =>
          join_pos _ _ _ (r.format_pos m)
        have h2 := h1 true (b!" | ")
        have h3 := h1 false (b!"\n")
        simp only [List.length_cons, Nat.zero_lt_succ, and_self, if_true, Option.getD_some,
          List.cons_ne_nil, and_false, iff_false, gt_iff_lt, Bool.true_eq_false]
        generalize hw : (if 0 < List.length v then v ++ b!"\n\n" else v) = w
        generalize hx : (if s.supportsMarkdown = true then
            join (b!" | ") (List.map (fun x => x.format true) (r :: rs))
          else join (b!"\n") (List.map (fun x => x.format false) (r :: rs))) = x
        have hx0 : 0 < x.length := by
          rw [← hx]
          split
          · exact h2
          · exact h3
        rw [if_pos (by rw [List.length_append]; omega)]
        simp

/-- **C46.** Generated documentation is the description, a blank line and the references,
each part only if there is something to show in it; references are links separated by
` | ` in Markdown and `name: url` lines otherwise. -/
theorem C46_value (description : Option Description) (references : Option (List Reference)) (s : DocSetting)
    (r : Markup) (h : generateDocumentation description references s = some r) :
    r.markdown = s.supportsMarkdown ∧
    r.value = join (b!"\n\n")
      ([Spec.shownDescription description s,
        if s.supportsMarkdown then
          join (b!" | ") ((Spec.shownReferences references s).map
            (fun x => b!"[" ++ x.name ++ b!"](" ++ x.url ++ b!")"))
        else
          join (b!"\n") ((Spec.shownReferences references s).map (fun x => x.name ++ b!": " ++ x.url))].filter
        (fun x => x ≠ [])) := by
  have hd : docDescription description s = Spec.shownDescription description s := by
    unfold docDescription Spec.shownDescription
    cases description with
    | none => rfl
    | some d => cases d <;> cases s.documentation <;> rfl
  unfold generateDocumentation at h
  rw [hd] at h
  generalize Spec.shownDescription description s = v at h ⊢
  dsimp only at h
  split at h
  · rename_i hl
    cases h
    refine ⟨rfl, ?_⟩
    dsimp only
    revert hl
    have hf1 : (fun x : Reference => b!"[" ++ x.name ++ b!"](" ++ x.url ++ b!")") = (·.format true) := by
      funext x; rfl
    have hf2 : (fun x : Reference => x.name ++ b!": " ++ x.url) = (·.format false) := by
      funext x; rfl
    rw [hf1, hf2]
    unfold docReferences Spec.shownReferences
    intro hl
    cases references with
    | none =>
      cases v with
      | nil => simp at hl
      | cons a v => cases s.references <;> cases s.supportsMarkdown <;> simp [join]
    | some rs =>
      cases hs : s.references with
      | false =>
        rw [hs] at hl
        cases v with
        | nil => simp at hl
        | cons a v => cases s.supportsMarkdown <;> simp [join]
      | true =>
        rw [hs] at hl
        cases rs with
        | nil =>
          cases v with
          | nil => simp at hl
          | cons a v => cases s.supportsMarkdown <;> simp [join]
        | cons r rs =>
          have h1 : ∀ m sep, join sep ((r :: rs).map (·.format m)) ≠ [] := fun m sep h => by
            have := join_pos sep _ (rs.map (·.format m)) (r.format_pos m)
            rw [List.map_cons] at h
            rw [h] at this
            simp at this
          have h2 := h1 true (b!" | ")
          have h3 := h1 false (b!"\n")
          generalize hj2 : join (b!" | ") ((r :: rs).map (·.format true)) = j2 at *
          generalize hj3 : join (b!"\n") ((r :: rs).map (·.format false)) = j3 at *
          simp only [if_true, Option.getD_some, hj2, hj3]
          cases v <;> cases s.supportsMarkdown <;> simp [join, h2, h3]
  · cases h

example : generateDocumentation (some (.str (b!"text"))) (some [⟨b!"A", b!"u"⟩, ⟨b!"B", b!"v"⟩]) ⟨true, true, true⟩ =
    some ⟨true, b!"text\n\n[A](u) | [B](v)"⟩ := by decide

example : generateDocumentation (some (.str (b!"text"))) (some [⟨b!"A", b!"u"⟩, ⟨b!"B", b!"v"⟩]) ⟨false, true, false⟩ =
    some ⟨false, b!"A: u\nB: v"⟩ := by decide

example : generateDocumentation (some (.markup (b!"text"))) (some []) ⟨false, true, true⟩ = none := by decide

end Html.Props
