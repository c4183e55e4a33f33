import Verif.Proof.Retag
import Verif.Props.Insert

/-! # Changing the attributes of a start tag (C76) -/

namespace Html.Props
open Html Html.Spec

/-- C76: if the start tag at offset `pre.length` is replaced by one with the same name and other attributes then the
element there has the attributes of the new tag, what is behind the start of the tag moves, and nothing else changes.
(The old and the new tag are written legally; what is around them is arbitrary.  For `script` and `style` neither tag
has an attribute `type`.) -/
theorem C76_attributes (u : Uni) (cs : Bool) (void : List Str) (pre y : Str) (tag tag' : TagText) (roots roots' : List Node)
    (hpre : EndsInContent u cs pre) (hn : TagName tag.name) (hl : tag.Legal) (hl' : tag'.Legal) (he : tag'.name = tag.name)
    (hraw : LegalName tag.name ∨ ∀ a ∈ tag.attrs ++ tag'.attrs, asciiLower a.name ≠ b!"type")
    (hy : (∃ z, y = b!">" ++ z) ∨ ((∃ z, y = b!"/>" ++ z) ∧ SlashFree tag ∧ SlashFree tag'))
    (h : parse u cs void (pre ++ tag.print ++ y) = .ok roots)
    (h' : parse u cs void (pre ++ tag'.print ++ y) = .ok roots') :
    roots' = retagAll pre.length tag.print.length tag'.print.length (tag'.nodes pre.length) roots :=
  parse_retag hpre hn hl hl' he hraw hy h h'

/-- C76, for all UTF-8 texts: the text with the new tag is parsed exactly if the text with the old tag is. -/
theorem C76_parsed (u : Uni) (cs : Bool) (void : List Str) (pre y : Str) (tag tag' : TagText) (cps cps' : List Nat)
    (hpre : EndsInContent u cs pre) (hn : TagName tag.name) (hl : tag.Legal) (hl' : tag'.Legal) (he : tag'.name = tag.name)
    (hraw : LegalName tag.name ∨ ∀ a ∈ tag.attrs ++ tag'.attrs, asciiLower a.name ≠ b!"type")
    (hy : (∃ z, y = b!">" ++ z) ∨ ((∃ z, y = b!"/>" ++ z) ∧ SlashFree tag ∧ SlashFree tag'))
    (h1 : Utf8 cps (pre ++ tag.print ++ y)) (h1' : Utf8 cps' (pre ++ tag'.print ++ y)) :
    parse u cs void (pre ++ tag'.print ++ y) = (parse u cs void (pre ++ tag.print ++ y)).map
      (retagAll pre.length tag.print.length tag'.print.length (tag'.nodes pre.length)) := by
  refine parse_map h1 h1' ?_ (fun roots roots' h h' =>
    C76_attributes u cs void pre y tag tag' roots roots' hpre hn hl hl' he hraw hy h h')
  rcases hy with ⟨z, rfl⟩ | ⟨⟨z, rfl⟩, hf, hf'⟩
  · have k := tag_broken (z := z) hpre hn hl (hraw.imp_right fun h a ha => h a (List.mem_append_left _ ha)) h1
    have k' := tag_broken (z := z) hpre (he ▸ hn) hl'
      (by rw [he]; exact hraw.imp_right fun h a ha => h a (List.mem_append_right _ ha)) h1'
    rw [he] at k'
    exact k'.trans k.symm
  · exact (slash_broken (z := z) hpre (he ▸ hn) hl' hf' h1').trans (slash_broken (z := z) hpre hn hl hf h1).symm

/-- C76: so typing in the quotes of an attribute changes the value of this attribute and moves what is behind it. -/
theorem C76_typing (u : Uni) (cs : Bool) (void : List Str) (pre y name gap gap' key v v' : Str) (as bs : List AttrText)
    (q : Nat) (hq : q = 34 ∨ q = 39) (hv : q ∉ v) (hv' : q ∉ v') (roots roots' : List Node)
    (hpre : EndsInContent u cs pre) (hn : LegalName name)
    (hl : (TagText.mk name (as ++ ⟨gap, key, some ([q] ++ v ++ [q])⟩ :: bs) gap').Legal)
    (h : parse u cs void (pre ++ (TagText.mk name (as ++ ⟨gap, key, some ([q] ++ v ++ [q])⟩ :: bs) gap').print ++
      (b!">" ++ y)) = .ok roots)
    (h' : parse u cs void (pre ++ (TagText.mk name (as ++ ⟨gap, key, some ([q] ++ v' ++ [q])⟩ :: bs) gap').print ++
      (b!">" ++ y)) = .ok roots') :
    ∃ attrs, roots' = retagAll pre.length v.length v'.length attrs roots ∧
      attrs.map (fun a => (a.1, a.2.value)) = as.map (fun a => (a.name, a.value)) ++
        (key, some ([q] ++ v' ++ [q])) :: bs.map (fun a => (a.name, a.value)) := by
  have hl' : (TagText.mk name (as ++ ⟨gap, key, some ([q] ++ v' ++ [q])⟩ :: bs) gap').Legal := by
    obtain ⟨⟨k1, k2⟩, k3⟩ := hl
    refine ⟨⟨fun a ha => ?_, by simpa using k2⟩, k3⟩
    simp only [List.mem_append, List.mem_cons] at ha k1
    rcases ha with ha | rfl | ha
    · exact k1 a (.inl ha)
    · obtain ⟨j1, j2, j3, j4, -⟩ := k1 _ (.inr (.inl rfl))
      exact ⟨j1, j2, j3, j4, fun w hw => .inl (by cases hw; exact ⟨q, v', hq, hv', rfl⟩)⟩
    · exact k1 a (.inr (.inr ha))
  have hr := C76_attributes u cs void pre (b!">" ++ y) _ _ roots roots' hpre hn.1 hl hl' rfl (.inl hn) (.inl ⟨y, rfl⟩) h h'
  refine ⟨(TagText.mk name (as ++ ⟨gap, key, some ([q] ++ v' ++ [q])⟩ :: bs) gap').nodes pre.length, ?_, ?_⟩
  rotate_left
  · have : ∀ (x : List AttrText) (i : Nat), (attrNodes i x).map (fun a => (a.1, a.2.value)) =
        x.map (fun a => (a.name, a.value)) := by
      intro x
      induction x with
      | nil => intro i; rfl
      | cons a x ih => intro i; simp only [attrNodes, List.map_cons, ih]
    exact (this _ (pre.length + 1 + name.length)).trans (by simp)
  · rw [hr]
    refine retagAll_congr (fun o => ?_) roots
    have e : ∀ w : Str, (TagText.mk name (as ++ ⟨gap, key, some ([q] ++ w ++ [q])⟩ :: bs) gap').print.length =
        w.length + (TagText.mk name (as ++ ⟨gap, key, some [q, q]⟩ :: bs) gap').print.length := by
      intro w
      have : ∀ (x : List AttrText) (z : Option Str), (printAttrs (x ++ ⟨gap, key, z⟩ :: bs)).length =
          (printAttrs x).length + (AttrText.mk gap key z).print.length + (printAttrs bs).length := by
        intro x z
        induction x with
        | nil => simp [printAttrs]
        | cons a x ih => simp only [List.cons_append, printAttrs, List.length_append, ih]; omega
      simp only [TagText.print, List.length_append, this, AttrText.print, List.length_cons, List.length_nil]
      omega
    rw [e v, e v']
    unfold moved
    split
    · rfl
    · omega

/-- The hypotheses are met: in `<p><i></i>a<b x=1>c</b></p>` the tag `<b x=1` is replaced by `<b id="t" y`. -/
example : (TagText.mk b!"b" [⟨b!" ", b!"x", some b!"1"⟩] []).Legal ∧
    (TagText.mk b!"b" [⟨b!" ", b!"id", some b!"\"t\""⟩, ⟨b!" ", b!"y", none⟩] []).Legal := by
  refine ⟨⟨⟨?_, by decide⟩, by decide⟩, ⟨?_, by decide⟩, by decide⟩
  · intro a ha
    simp only [List.mem_singleton] at ha
    subst ha
    refine ⟨by decide, by decide, by simp only [AttributeName]; decide, by decide, fun w hw => .inr (.inl ?_)⟩
    cases hw
    exact ⟨by decide, by decide⟩
  · intro a ha
    simp only [List.mem_cons, List.not_mem_nil, or_false] at ha
    rcases ha with rfl | rfl
    · refine ⟨by decide, by decide, by simp only [AttributeName]; decide, by decide, fun w hw => .inl ?_⟩
      cases hw
      exact ⟨34, b!"t", .inl rfl, by decide, rfl⟩
    · exact ⟨by decide, by decide, by simp only [AttributeName]; decide, by decide, fun w hw => by cases hw⟩

example (u : Uni) (cs : Bool) : (parse u cs [] (b!"<p><i></i>a" ++ b!"<b x=1" ++ b!">c</b></p>")).map
      (retagAll 11 6 11 [(b!"id", ⟨some b!"\"t\"", 14⟩), (b!"y", ⟨none, 21⟩)]) =
    .ok [⟨some b!"p", 0, 32, [⟨some b!"i", 3, 10, [], true, some 6, some 6, []⟩,
      ⟨some b!"b", 11, 28, [], true, some 23, some 24, [(b!"id", ⟨some b!"\"t\"", 14⟩), (b!"y", ⟨none, 21⟩)]⟩], true,
        some 3, some 28, []⟩] := by
  cases cs <;> krfl

/-- The type of a script may decide whether its content is read as markup. -/
theorem C76_needs_type (u : Uni) (cs : Bool) :
    parse u cs [] (b!"<script" ++ b!"><b></b></script>") = .ok [⟨some b!"script", 0, 24, [], true, some 8, some 15, []⟩] ∧
    parse u cs [] (b!"<script type=\"text/html\"" ++ b!"><b></b></script>") = .ok
      [⟨some b!"script", 0, 41, [⟨some b!"b", 25, 32, [], true, some 28, some 28, []⟩], true, some 25, some 32,
        [(b!"type", ⟨some b!"\"text/html\"", 8⟩)]⟩] := by
  constructor <;> cases cs <;> krfl

/-- And an unquoted value takes the slash of a tag that closes itself. -/
theorem C76_needs_slash (u : Uni) (cs : Bool) :
    parse u cs [] (b!"<a x" ++ b!"/><b></b>") = .ok [⟨some b!"a", 0, 6, [], true, some 6, none, [(b!"x", ⟨none, 3⟩)]⟩,
      ⟨some b!"b", 6, 13, [], true, some 9, some 9, []⟩] ∧
    parse u cs [] (b!"<a x=y" ++ b!"/><b></b>") = .ok [⟨some b!"a", 0, 15,
      [⟨some b!"b", 8, 15, [], true, some 11, some 11, []⟩], false, some 8, none, [(b!"x", ⟨some b!"y/", 3⟩)]⟩] := by
  constructor <;> cases cs <;> krfl

end Html.Props
