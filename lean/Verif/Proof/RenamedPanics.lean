import Verif.Proof.EditPanics
import Verif.Proof.Encoded
import Verif.Proof.RenamedEdits

/-! # Renaming an element does not change whether the text can be parsed -/

namespace Html
open Spec Props

variable {u : Uni} {cs : Bool} {void : List Str}

theorem utf8_behind {x y : Str} {b : Nat} {cps : List Nat} (hu : Utf8 cps (x ++ b :: y)) (hb : b < 128) :
    ∃ cps', Utf8 cps' y := by
  have h : isBoundary (x ++ b :: y) (x.length + 1) = true := asciiNext_of_utf8 hu x.length b (by simp) hb
  obtain ⟨k, _, h⟩ := utf8_split hu h
  rw [show (x ++ b :: y).drop (x.length + 1) = y by
    rw [show x ++ b :: y = (x ++ [b]) ++ y by simp, show x.length + 1 = (x ++ [b]).length by simp, List.drop_left]] at h
  exact ⟨_, h⟩

theorem content_start (u : Uni) (cs : Bool) : EndsInContent u cs [] := ⟨[], [], rfl, by simp, .inl rfl⟩

theorem legal_state {name : Str} (h : LegalName name) :
    afterStartTag { Sc.new 0 .WithinTag with lastTag := some (keptName (parserCfg u cs []) name) } = .WithinContent :=
  afterStartTag_html (c := parserCfg u cs []) (tag := ⟨name, [], []⟩) (i := 0) (sp := (Sc.new 0 .WithinTag).hasSpace) (ty := none)
    ⟨.inl rfl, rfl, rfl, rfl, rfl⟩ (.inl h)

theorem bare_legal {name : Str} : (TagText.mk name [] []).Legal := ⟨⟨by simp, by simp⟩, by simp [Spaces]⟩

theorem spaces_lt {gap : Str} (h : Spaces gap) : isAscii gap := fun b hb => by
  have := h b hb
  unfold Space at this
  omega

/-- An end tag in content. -/
theorem endTag_broken {old gap rest : Str} {cps : List Nat} (ho : LegalName old) (hg : Spaces gap)
    (hu : Utf8 cps (b!"</" ++ old ++ gap ++ 62 :: rest)) :
    Broken u cs .WithinContent (b!"</" ++ old ++ gap ++ 62 :: rest) ↔ Broken u cs .WithinContent rest := by
  have ha : isAscii (b!"<" ++ old ++ b!">") := by
    intro b hb
    simp only [List.mem_append, List.mem_singleton] at hb
    rcases hb with (rfl | hb) | rfl
    · decide
    · exact ho.1.ascii b hb
    · decide
  obtain ⟨k, hk⟩ := (Enc.ascii ha).append ⟨cps, hu⟩
  have e1 : b!"<" ++ old ++ b!">" ++ (b!"</" ++ old ++ gap ++ 62 :: rest) =
      [] ++ (TagText.mk old [] []).print ++ (62 :: (b!"</" ++ old ++ gap ++ 62 :: rest)) := by
    simp [TagText.print, printAttrs]
  have e2 : b!"<" ++ old ++ b!">" ++ (b!"</" ++ old ++ gap ++ 62 :: rest) =
      [] ++ printAll [.elem ⟨old, [], []⟩ [] gap] ++ rest := by
    simp [printAll, Item.print, TagText.print, printAttrs]
  have h1 := tag_broken (content_start u cs) (tag := ⟨old, [], []⟩) ho.1 bare_legal (.inl ho) (e1 ▸ hk)
  have h2 := insert_broken (void := []) (content_start u cs) (items := [.elem ⟨old, [], []⟩ [] gap])
    ⟨⟨bare_legal, hg, by simp, .inl ⟨.inl ho, trivial⟩⟩, trivial⟩ (e2 ▸ hk)
  rw [legal_state ho] at h1
  rw [← e1] at h1
  rw [← e2] at h2
  exact h1.symm.trans h2

/-- The element with its end tag. -/
theorem both_broken {pre m old gap rest : Str} {tag : TagText} {cps : List Nat}
    (hpre : EndsInContent u cs pre) (hn : LegalName tag.name) (hl : tag.Legal) (hm : EndsInContent u cs m)
    (ho : LegalName old) (hg : Spaces gap)
    (hu : Utf8 cps (pre ++ tag.print ++ b!">" ++ m ++ b!"</" ++ old ++ gap ++ b!">" ++ rest)) :
    Broken u cs .WithinContent (pre ++ tag.print ++ b!">" ++ m ++ b!"</" ++ old ++ gap ++ b!">" ++ rest) ↔
      Broken u cs .WithinContent rest := by
  have e : pre ++ tag.print ++ b!">" ++ m ++ b!"</" ++ old ++ gap ++ b!">" ++ rest =
      pre ++ tag.print ++ (62 :: (m ++ (b!"</" ++ old ++ gap ++ 62 :: rest))) := by simp
  rw [e] at hu ⊢
  rw [tag_broken hpre hn.1 hl (.inl hn) hu, legal_state hn]
  obtain ⟨k, hk⟩ := utf8_behind hu (by decide)
  rw [content_broken hm hk]
  have hb : ∃ k, Utf8 k (47 :: (old ++ gap ++ 62 :: rest)) :=
    utf8_behind (x := m) (b := 60) (cps := k) (by simpa using hk) (by decide)
  obtain ⟨k', hk'⟩ := (Enc.ascii (x := [60]) (by simp [isAscii])).append hb
  exact endTag_broken ho hg (by simpa using hk')

/-- The names are the same, so none is that of a raw text element. -/
theorem legal_same {a b : Str} (h : SameName u cs (some a) (some b)) (ha : LegalName a) (hb : TagName b) : LegalName b := by
  refine ⟨hb, ?_⟩
  have : asciiLower b = asciiLower a := by
    unfold SameName at h
    split at h
    · cases h; rfl
    · simp only [Option.map_some, Option.some.injEq] at h
      unfold toLower at h
      rw [if_pos (by simpa [isAscii] using ha.1.ascii), if_pos (by simpa [isAscii] using hb.ascii)] at h
      exact h.symm
  rw [this]
  exact ha.2

/-- A name in the text is replaced by another one. -/
theorem enc_replace {x w w' y : Str} (h : Enc (x ++ (w ++ y))) (hw : TagName w) (hw' : TagName w') : Enc (x ++ (w' ++ y)) := by
  obtain ⟨⟨b, t, e, -⟩, -⟩ := id hw
  have h1 := h.split (fun a ha => hw.ascii a (by rw [e] at ha ⊢; cases ha; exact List.mem_cons_self))
  exact h1.1.append ((Enc.ascii hw'.ascii).append (h1.2.behind hw.ascii))

theorem enc_both {pre m old new gap rest : Str} {tag : TagText} (hn : TagName tag.name) (hn' : TagName new) (ho : TagName old)
    (h : Enc (pre ++ tag.print ++ b!">" ++ m ++ b!"</" ++ old ++ gap ++ b!">" ++ rest)) :
    Enc (pre ++ ({ tag with name := new } : TagText).print ++ b!">" ++ m ++ b!"</" ++ new ++ gap ++ b!">" ++ rest) := by
  have e1 : pre ++ tag.print ++ b!">" ++ m ++ b!"</" ++ old ++ gap ++ b!">" ++ rest =
      (pre ++ b!"<") ++ (tag.name ++ (printAttrs tag.attrs ++ tag.gap ++ b!">" ++ m ++ b!"</" ++ old ++ gap ++ b!">" ++ rest)) := by
    simp [TagText.print]
  rw [e1] at h
  have h1 := enc_replace h hn hn'
  have e2 : (pre ++ b!"<") ++ (new ++ (printAttrs tag.attrs ++ tag.gap ++ b!">" ++ m ++ b!"</" ++ old ++ gap ++ b!">" ++ rest)) =
      (pre ++ b!"<" ++ new ++ printAttrs tag.attrs ++ tag.gap ++ b!">" ++ m ++ b!"</") ++ (old ++ (gap ++ b!">" ++ rest)) := by
    simp
  rw [e2] at h1
  have h2 := enc_replace h1 ho hn'
  have e3 : (pre ++ b!"<" ++ new ++ printAttrs tag.attrs ++ tag.gap ++ b!">" ++ m ++ b!"</") ++ (new ++ (gap ++ b!">" ++ rest)) =
      pre ++ ({ tag with name := new } : TagText).print ++ b!">" ++ m ++ b!"</" ++ new ++ gap ++ b!">" ++ rest := by
    simp [TagText.print]
  rwa [e3] at h2

theorem enc_one {pre new w : Str} {tag : TagText} (hn : TagName tag.name) (hn' : TagName new)
    (h : Enc (pre ++ tag.print ++ w)) : Enc (pre ++ ({ tag with name := new } : TagText).print ++ w) := by
  have e1 : pre ++ tag.print ++ w = (pre ++ b!"<") ++ (tag.name ++ (printAttrs tag.attrs ++ tag.gap ++ w)) := by
    simp [TagText.print]
  rw [e1] at h
  have h1 := enc_replace h hn hn'
  have e2 : (pre ++ b!"<") ++ (new ++ (printAttrs tag.attrs ++ tag.gap ++ w)) =
      pre ++ ({ tag with name := new } : TagText).print ++ w := by
    simp [TagText.print]
  rwa [e2] at h1

/-- If the text is parsed, so is the one with the new names. -/
theorem both_ok {pre m old new gap rest : Str} {tag : TagText} {cps : List Nat} {roots : List Node} {n : Node}
    (hpre : EndsInContent u cs pre) (hn : LegalName tag.name) (hn' : LegalName new) (hl : tag.Legal) (hm : EndsInContent u cs m)
    (ho : TagName old) (hg : Spaces gap)
    (hu : Utf8 cps (pre ++ tag.print ++ b!">" ++ m ++ b!"</" ++ old ++ gap ++ b!">" ++ rest))
    (h : parse u cs void (pre ++ tag.print ++ b!">" ++ m ++ b!"</" ++ old ++ gap ++ b!">" ++ rest) = .ok roots)
    (hin : InForest roots n) (hs : n.start = pre.length)
    (hE : n.endTagStart = some (pre.length + tag.print.length + 1 + m.length)) :
    ∃ roots', parse u cs void (pre ++ ({ tag with name := new } : TagText).print ++ b!">" ++ m ++ b!"</" ++ new ++ gap ++
      b!">" ++ rest) = .ok roots' := by
  have ho' := legal_same (end_same hn.1 hl ho hg rfl h hin hs hE).2.1 hn ho
  obtain ⟨k, hk⟩ := enc_both hn.1 hn'.1 ho ⟨cps, hu⟩
  have h1 := (both_broken hpre hn hl hm ho' hg hu).trans
    (both_broken (tag := { tag with name := new }) hpre hn' hl hm hn' hg hk).symm
  rw [broken_iff (void := void) hu, broken_iff (void := void) hk] at h1
  cases h2 : parse u cs void _ with
  | ok roots' => exact ⟨roots', rfl⟩
  | error e =>
    obtain ⟨e', h3⟩ := h1.2 ⟨e, h2⟩
    rw [h] at h3
    cases h3

theorem one_ok {pre new rest : Str} {w : Str} {tag : TagText} {cps : List Nat} {roots : List Node}
    (hpre : EndsInContent u cs pre) (hn : LegalName tag.name) (hn' : LegalName new) (hl : tag.Legal)
    (hw : w = b!">" ∨ (w = b!"/>" ∧ SlashFree tag))
    (hu : Utf8 cps (pre ++ tag.print ++ w ++ rest))
    (h : parse u cs void (pre ++ tag.print ++ w ++ rest) = .ok roots) :
    ∃ roots', parse u cs void (pre ++ ({ tag with name := new } : TagText).print ++ w ++ rest) = .ok roots' := by
  obtain ⟨k, hk⟩ : Enc (pre ++ ({ tag with name := new } : TagText).print ++ w ++ rest) := by
    rw [List.append_assoc]
    exact enc_one hn.1 hn'.1 ⟨cps, by rw [← List.append_assoc]; exact hu⟩
  have h1 : Broken u cs .WithinContent (pre ++ tag.print ++ w ++ rest) ↔
      Broken u cs .WithinContent (pre ++ ({ tag with name := new } : TagText).print ++ w ++ rest) := by
    rcases hw with rfl | ⟨rfl, hf⟩
    · have e : ∀ t : TagText, pre ++ t.print ++ b!">" ++ rest = pre ++ t.print ++ (62 :: rest) := fun t => by simp
      rw [e] at hu hk ⊢
      rw [e, tag_broken hpre hn.1 hl (.inl hn) hu, tag_broken (tag := { tag with name := new }) hpre hn'.1 hl (.inl hn') hk,
        legal_state hn, legal_state hn']
    · have e : ∀ t : TagText, pre ++ t.print ++ b!"/>" ++ rest = pre ++ t.print ++ (47 :: 62 :: rest) := fun t => by simp
      rw [e] at hu hk ⊢
      rw [e, slash_broken hpre hn.1 hl hf hu, slash_broken (tag := { tag with name := new }) hpre hn'.1 hl hf hk]
  rw [broken_iff (void := void) hu, broken_iff (void := void) hk] at h1
  cases h2 : parse u cs void _ with
  | ok roots' => exact ⟨roots', rfl⟩
  | error e =>
    obtain ⟨e', h3⟩ := h1.2 ⟨e, h2⟩
    rw [h] at h3
    cases h3

end Html
