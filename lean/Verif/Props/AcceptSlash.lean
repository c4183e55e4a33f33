import Verif.Proof.AcceptSlash
import Verif.Proof.RenamedPanics
import Verif.Props.Completion
import Verif.Props.Insert

/-! # Accepted completions: C81 -/

namespace Html.Props
open Html Spec

/-- C81: accepting the text that is proposed behind `</` closes the innermost element that is open there.  The proposed
text is the name of this element and `>` (without `>`, if one follows).  In the text with it inserted at the cursor the
element ends with this end tag, and has the children in front of it; everything in its start tag is unchanged.  (Unless
within this element another one has its end tag there already.) -/
theorem C81_closes (e : CompEnv) (d : TextDoc) (position : Pos) (roots : List Node) (ts : List Tok)
    (a b v : Str) (cps : List Nat) (ha : EndsInContent e.uni e.caseSensitive a) (hd : d.text = a ++ (b!"</" ++ b))
    (hu : Utf8 cps d.text) (h : parse e.uni e.caseSensitive e.void d.text = .ok roots)
    (ht : tokens (parserCfg e.uni e.caseSensitive d.text) (.new 0 .WithinContent) = .ok ts)
    (ho : d.offsetAt position = a.length + 2) (hc : NoCut ts (a.length + 2))
    (hr : doTagComplete e d position roots = .ok (some v)) :
    ∃ n t, InForest roots n ∧ OpenHere a.length (a.length + 2) n ∧
      (∀ m, InForest roots m → OpenHere a.length (a.length + 2) m → m = n ∨ InForest m.children n) ∧
      n.tag = some t ∧ (v = t ++ b!">" ∨ v = t ∧ ∃ b', b = b!">" ++ b') ∧
      ((∀ k, InForest n.children k → k.endTagStart ≠ some a.length) →
        ∀ roots', parse e.uni e.caseSensitive e.void (a ++ (b!"</" ++ (v ++ b))) = .ok roots' →
          InForest roots' (closedHere n a.length t)) := by
  have hget : d.text[a.length + 1]? = some 47 := by rw [hd]; simp
  have hbd : isBoundary d.text (a.length + 1 + 1) = true := by
    obtain ⟨hu1, hu2⟩ := id hu
    have := utf8_ascii_next (cps := cps) hu1 (i := a.length + 1) (b := 47) (by rw [← hu2]; exact hget) (by decide)
    rw [hu2]; exact this
  obtain ⟨r, h1, h2⟩ := C40_behind_slash e e.void d position roots ts (a.length + 1) h ht ho hbd hget hc
  rw [h1] at hr
  cases hr
  obtain ⟨x, n, ps, t, k1, k2, k3, k4, k5, k6, k7, k8⟩ := (h2 v).1 rfl
  have hD : Doc e.uni e.caseSensitive e.void d.text roots ts := ⟨h, ht⟩
  have hn := (chain_inForest k4).1
  have hstop : x.stop = x.offset + 2 := (hD.not_in_end k1 k2 hn (by have := k5.1; have := hD.nonempty k1 (.inr (.inl k2)); omega)).1
  have hoff : x.offset = a.length := by omega
  rw [hoff] at k5 k6
  have hv : v = t ++ b!">" ∨ v = t ∧ ∃ b', b = b!">" ++ b' := by
    split at k8
    · exact .inl k8
    · rename_i hg
      refine .inr ⟨k8, ?_⟩
      have hg : getStr d.text (a.length + 2) (a.length + 3) = some b!">" := by simpa using hg
      have hb := (getStr_one.1 hg).1
      rw [hd] at hb
      cases b with
      | nil => simp at hb
      | cons y b' =>
        have : y = 62 := by simpa using hb
        exact ⟨b', by rw [this]; rfl⟩
  refine ⟨n, t, hn, k5, ?_, k7, hv, fun hno roots' h' => ?_⟩
  · intro m hm hom
    rcases k6 m hm hom with h3 | h3
    · exact .inl h3
    · exact .inr (chain_below k4 h3)
  · have hD' := hD
    rw [hd] at hD' hu
    rw [show a.length + 1 + 1 = x.stop by omega] at k5 k6
    rw [← hoff] at k5 k6
    rcases hv with hv | ⟨hv, b', hb⟩
    · refine accept_slash (b' := b) ha hu hD' k1 k2 hoff (by omega) (by rw [show x.stop = a.length + 2 by omega]; exact hc) k4 k5 k6 k7 hno ?_
      rw [← h', hv]
      simp
    · refine accept_slash (b' := b') ha hu hD' k1 k2 hoff (by omega) (by rw [show x.stop = a.length + 2 by omega]; exact hc) k4 k5 k6 k7 hno ?_
      rw [← h', hv, hb]
      simp

/-- C81: if the innermost element has its end tag there already, the one around it is proposed, and accepting it takes the
end tag away from the innermost one. -/
theorem C81_own_end_tag (u : Uni) (cs : Bool) :
    ∃ roots, parse u cs [] b!"<div><p></p>" = .ok roots ∧
      doTagComplete { exComp with uni := u, caseSensitive := cs } (.ref b!"<div><p></p>") ⟨0, 10⟩ roots =
        .ok (some b!"div>") ∧
      roots = [⟨some b!"div", 0, 12, [⟨some b!"p", 5, 12, [], true, some 8, some 8, []⟩], false, some 5, none, []⟩] ∧
      parse u cs [] b!"<div><p></div>p>" =
        .ok [⟨some b!"div", 0, 14, [⟨some b!"p", 5, 8, [], false, some 8, none, []⟩], true, some 5, some 8, []⟩] := by
  refine ⟨_, ?_, ?_, rfl, ?_⟩
  · cases cs <;> krfl
  · cases cs <;> krfl
  · cases cs <;> krfl

theorem ok_iff_not_broken {void : List Str} {u : Uni} {cs : Bool} {src : Str} (h : Enc src) :
    (∃ roots, parse u cs void src = .ok roots) ↔ ¬ Broken u cs .WithinContent src := by
  obtain ⟨cps, hu⟩ := h
  rw [broken_iff (void := void) hu]
  cases parse u cs void src <;> simp

/-- C81: the text with the end tag inserted is parsed exactly if the text behind the cursor is parsed as a text on its own. -/
theorem C81_parsed_iff (u : Uni) (cs : Bool) (void : List Str) (a b t : Str) (cps : List Nat) (ha : EndsInContent u cs a)
    (ht : LegalName t) (hu : Utf8 cps (a ++ (b!"</" ++ b))) :
    (∃ roots', parse u cs void (a ++ (b!"</" ++ (t ++ b!">" ++ b))) = .ok roots') ↔ ∃ roots', parse u cs void b = .ok roots' := by
  obtain ⟨h1, h2⟩ := Enc.split (x := a) (y := b!"</" ++ b) ⟨cps, hu⟩ (by intro x hx; cases hx; decide)
  have hb : Enc b := (h2.tail (by decide)).tail (by decide)
  have h3 : Enc (b!"</" ++ t ++ [] ++ 62 :: b) :=
    (((Enc.ascii (by decide)).append (Enc.ascii ht.1.ascii)).append .nil).append ((Enc.ascii (by decide) : Enc b!">").append hb)
  have h4 := h1.append h3
  have e : a ++ (b!"</" ++ (t ++ b!">" ++ b)) = a ++ (b!"</" ++ t ++ [] ++ 62 :: b) := by simp
  rw [e, ok_iff_not_broken h4, ok_iff_not_broken hb]
  obtain ⟨k3, h3⟩ := h3
  obtain ⟨k4, h4⟩ := h4
  rw [content_broken ha h4, endTag_broken ht (by simp [Spaces]) h3]

/-- C81: if a `>` follows the cursor, the new text is parsed whenever the old one is. -/
theorem C81_parsed_before_bracket (u : Uni) (cs : Bool) (void : List Str) (a b t : Str) (cps : List Nat)
    (ha : EndsInContent u cs a) (ht : LegalName t) (hu : Utf8 cps (a ++ (b!"</" ++ (b!">" ++ b)))) (roots : List Node)
    (h : parse u cs void (a ++ (b!"</" ++ (b!">" ++ b))) = .ok roots) :
    ∃ roots', parse u cs void (a ++ (b!"</" ++ (t ++ (b!">" ++ b)))) = .ok roots' := by
  have he : EndsInContent u cs b!"</>" := ⟨b!"</>", [], by decide, by decide, .inr ⟨[⟨.EndTagOpen, 0, 2, none, .AfterOpeningEndTag⟩],
    ⟨.EndTagClose, 2, 3, none, .WithinContent⟩, ⟨⟨[60, 47, 62], by decide, rfl⟩, by cases cs <;> krfl, by decide, by decide⟩, rfl⟩⟩
  obtain ⟨h1, h2⟩ := Enc.split (x := a) (y := b!"</" ++ (b!">" ++ b)) ⟨cps, hu⟩ (by intro x hx; cases hx; decide)
  have hb : Enc b := ((h2.tail (by decide)).tail (by decide)).tail (by decide)
  have h3 := (ok_iff_not_broken (void := void) ⟨cps, hu⟩).1 ⟨roots, h⟩
  obtain ⟨k2, h2⟩ := h2
  rw [content_broken ha hu, show b!"</" ++ (b!">" ++ b) = b!"</>" ++ b by simp, content_broken he h2] at h3
  obtain ⟨k, h5⟩ := h1.append ((Enc.ascii (by decide) : Enc b!"</").append hb)
  have h6 := (C81_parsed_iff u cs void a b t k ha ht h5).2 ((ok_iff_not_broken hb).2 h3)
  simpa using h6

/-- C81: without a `>` behind the cursor the new text may fail to be parsed: what is behind the cursor was skipped up to the
next `>`, and is scanned for tags now. -/
theorem C81_parse_limit (u : Uni) (cs : Bool) : ∃ roots, parse u cs [] b!"<div></<p type='é" = .ok roots ∧
      doTagComplete { exComp with uni := u, caseSensitive := cs } (.ref b!"<div></<p type='é") ⟨0, 7⟩ roots =
        .ok (some b!"div>") ∧
      parse u cs [] b!"<div></div><p type='é" = .error .slice := by
  refine ⟨[⟨some b!"div", 0, 18, [], false, some 5, none, []⟩], ?_, ?_, ?_⟩
  · cases cs <;> krfl
  · cases cs <;> krfl
  · cases cs <;> krfl

/-- A document for the examples: the `p` is proposed behind the `</`. -/
def exSlash : Str := b!"<p><i></i>a" ++ (b!"</" ++ b!"<q>")

example : EndsInContent exComp.uni exComp.caseSensitive b!"<p><i></i>a" := exEndsInContent _ _

example : LegalName b!"p" := ⟨⟨⟨112, [], rfl, by unfold NameStartByte; decide⟩, by unfold NameByte; decide⟩, by decide, by decide⟩

example : ∃ roots, parse exUni false [] (b!"<p><i></i>a" ++ (b!"</" ++ (b!">" ++ b!"<q>"))) = .ok roots := by
  refine ⟨[⟨some b!"p", 0, 17, [⟨some b!"i", 3, 10, [], true, some 6, some 6, []⟩,
    ⟨some b!"q", 14, 17, [], false, some 17, none, []⟩], false, some 3, none, []⟩], ?_⟩
  krfl

example : ∃ cps, Utf8 cps exSlash := ⟨exSlash, by decide, by krfl⟩

example : returns (parse exUni false [] exSlash) (fun roots =>
    returns (doTagComplete exComp (exLine exSlash) ⟨0, 13⟩ roots) (fun r => r = some b!"p>") &&
    returns (tokens (parserCfg exUni false exSlash) (.new 0 .WithinContent)) (fun ts =>
      ts.all (fun t => decide (t.stop < 13 → t.offset < t.stop)))) = true := by
  decide +kernel

example : (exLine exSlash).offsetAt ⟨0, 13⟩ = b!"<p><i></i>a".length + 2 := by krfl

example : returns (parse exUni false [] (b!"<p><i></i>a" ++ (b!"</" ++ (b!"p>" ++ b!"<q>")))) (fun roots =>
    roots.map (fun n => (n.tag, n.start, n.endTagStart, n.stop, n.children.map (·.start))) =
      [(some b!"p", 0, some 11, 15, [3]), (some b!"q", 15, none, 18, [])]) = true := by
  decide +kernel

end Html.Props
