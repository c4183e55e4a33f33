import Verif.Model.TagServices
import Verif.Proof.Query
import Verif.Spec.Position

/-! # Lemmas for the services on tag names -/

namespace Html
open Spec

theorem chain_child_covers {l ps : List Node} {n m : Node} {o : Nat} (h : Chain l ps n)
    (hc : Covers n o) (hp : ∀ p ∈ ps, Covers p o) (hm : m ∈ ps) : ∃ d ∈ m.children, Covers d o := by
  induction ps generalizing l with
  | nil => cases hm
  | cons p ps ih =>
    obtain ⟨h1, h2⟩ := h
    rcases List.mem_cons.1 hm with rfl | hm
    · cases ps with
      | nil => exact ⟨n, h2, hc⟩
      | cons q qs => exact ⟨q, h2.1, hp q (by simp)⟩
    · exact ih h2 (fun p hp' => hp p (by simp [hp'])) hm

variable {u : Uni} {cs : Bool} {void : List Str} {src : Str} {roots : List Node} {n : Node} {o : Nat}

/-- The innermost node at an offset that no child covers. -/
theorem findNodeAt_of_covers (h : parse u cs void src = .ok roots) (hn : InForest roots n)
    (hc : Covers n o) (hk : ∀ d ∈ n.children, ¬ Covers d o) : ∃ ps, findNodeAt roots o = some (n, ps) := by
  have hnest := parse_nest h
  have hs := findNodeAt_spec (o := o) hnest
  cases hf : findNodeAt roots o with
  | none => rw [hf] at hs; exact absurd hc (hs n hn)
  | some x =>
    obtain ⟨r, ps⟩ := x
    rw [hf] at hs
    refine ⟨ps, ?_⟩
    rcases hs.all n hn hc with h1 | h1
    · obtain ⟨d, hd, hd2⟩ := chain_child_covers hs.chain hs.covers
        (chain_covers hnest.deep hs.chain hs.covers) h1
      exact absurd hd2 (hk d hd)
    · rw [h1]

theorem nameLen_before_close (h : parse u cs void src = .ok roots) (hn : InForest roots n) {s : Nat}
    (hs : n.startTagEnd = some s) : n.start + 1 + nameLen n < s := by
  have hd := parse_done h hn
  cases ht : n.tag with
  | some t =>
    simp only [nameLen, ht, Option.getD_some]
    exact name_before_close hd ht hs
  | none =>
    simp only [nameLen, ht, Option.getD_none, List.length_nil]
    obtain ⟨h1, h2, _⟩ := hd.ste s hs
    have := start_close_ne (at_single hd.opn) h2 h1
    omega

/-- On a tag name of a node, the node is the innermost one. -/
theorem findNodeAt_name (h : parse u cs void src = .ok roots) (hn : InForest roots n) (hc : Covers n o)
    (ho : OnName (n.start + 1) (nameLen n) o ∨ ∃ e, n.endTagStart = some e ∧ OnName (e + 2) (nameLen n) o) :
    ∃ ps, findNodeAt roots o = some (n, ps) := by
  refine findNodeAt_of_covers h hn hc fun d hd hdc => ?_
  have hdone := parse_done h hn
  cases hs : n.startTagEnd with
  | none => rw [(hdone.noste hs).1] at hd; cases hd
  | some s =>
    obtain ⟨_, _, h3, _⟩ := hdone.ste s hs
    have h4 := h3.mem hd
    have h5 := nameLen_before_close h hn hs
    unfold Covers at hdc
    unfold OnName at ho
    rcases ho with ho | ⟨e, he, ho⟩
    · omega
    · simp only [contentEnd, he, Option.getD_some] at h4; omega

theorem findNodeAt_mem (h : parse u cs void src = .ok roots) {ps : List Node}
    (hf : findNodeAt roots o = some (n, ps)) : InForest roots n ∧ Covers n o := by
  have hs := findNodeAt_spec (o := o) (parse_nest h)
  rw [hf] at hs
  exact ⟨(chain_inForest hs.chain).1, hs.covers⟩

theorem linked_eq (d : TextDoc) (p : Pos) {ps : List Node}
    (hf : findNodeAt roots (d.offsetAt p) = some (n, ps)) : findLinkedEditingRanges d p roots =
    (n.endTagStart.bind fun e =>
      if (n.start + 1 ≤ d.offsetAt p ∧ d.offsetAt p ≤ n.start + 1 + nameLen n) ∨
        (e + 2 ≤ d.offsetAt p ∧ d.offsetAt p ≤ e + 2 + nameLen n) then
      some [⟨d.posAt (n.start + 1), d.posAt (n.start + 1 + nameLen n)⟩,
        ⟨d.posAt (e + 2), d.posAt (e + 2 + nameLen n)⟩] else none) := by
  unfold findLinkedEditingRanges
  simp only [hf, Option.bind_eq_bind, Option.bind_some]
  unfold nameLen; cases n.tag <;> rfl

theorem matching_eq (d : TextDoc) (p : Pos) {ps : List Node}
    (hf : findNodeAt roots (d.offsetAt p) = some (n, ps)) : findMatchingTagPosition d p roots =
    (n.tag.bind fun _ => n.endTagStart.bind fun e =>
      if n.start + 1 ≤ d.offsetAt p ∧ d.offsetAt p ≤ n.start + 1 + nameLen n then
        some (d.posAt ((d.offsetAt p - 1 - n.start) + e + 2))
      else if e + 2 ≤ d.offsetAt p ∧ d.offsetAt p ≤ e + 2 + nameLen n then
        some (d.posAt ((d.offsetAt p - 2 - e) + n.start + 1))
      else none) := by
  unfold findMatchingTagPosition
  simp only [hf, Option.bind_eq_bind, Option.bind_some]
  unfold nameLen; cases n.tag <;> rfl

theorem rename_eq (d : TextDoc) (p : Pos) (new : Str) {ps : List Node}
    (hf : findNodeAt roots (d.offsetAt p) = some (n, ps)) : doRename d p new roots =
    (n.tag.bind fun t =>
      if isWithinTagRange n (d.offsetAt p) t then
        some (⟨⟨d.posAt (n.start + 1), d.posAt (n.start + 1 + t.length)⟩, new⟩ ::
          match n.endTagStart with
          | some e => [⟨⟨d.posAt (e + 2), d.posAt (e + 2 + t.length)⟩, new⟩]
          | none => [])
      else none) := by
  unfold doRename
  simp only [hf, Option.bind_eq_bind, Option.bind_some]
  cases n.tag with
  | none => rfl
  | some t =>
    simp only [Option.bind_some]
    split
    · cases n.endTagStart <;> rfl
    · rfl

theorem at_of_noBlank {i : Nat} {w t : Str} (hw : Spaces w) (h : At src i (w ++ t))
    (hb : NoBlank src i) : w = [] := by
  cases w with
  | nil => rfl
  | cons b w =>
    obtain ⟨r, hr⟩ := h
    refine absurd (hw b List.mem_cons_self) (hb b (at_get ⟨w ++ t ++ r, ?_⟩))
    rw [hr]; simp

theorem at_mem {i : Nat} {t : Str} (h : At src i t) : ∀ b ∈ t, b ∈ src := by
  obtain ⟨r, hr⟩ := h
  intro b hb
  exact List.mem_of_mem_drop (i := i) (by rw [hr]; simp [hb])

theorem at_bytesIn {i : Nat} {t : Str} (h : At src i t) : bytesIn src i (i + t.length) = t := by
  obtain ⟨r, hr⟩ := h
  unfold bytesIn
  rw [List.drop_take, hr, Nat.add_sub_cancel_left]
  simp

/-- The name behind `</`. -/
theorem end_name (h : parse u cs void src = .ok roots) (hn : InForest roots n) {t : Str} {e : Nat}
    (ht : n.tag = some t) (he : n.endTagStart = some e) (hb : NoBlank src (e + 2)) :
    ∃ t', SameName u cs (some t) (some t') ∧ At src (e + 2) t' ∧ e + 2 + t'.length ≤ n.stop ∧
      (At src (n.stop - 1) b!">" → e + 2 + t'.length < n.stop) := by
  obtain ⟨_, h2, _, name, h3, h4⟩ := (parse_done h hn).ets e he
  rw [ht] at h3
  cases name with
  | none => simp [SameName] at h3
  | some t' =>
    refine ⟨t', h3, ?_⟩
    rcases h4 with ⟨h5, ⟨w, hw, hat, hel, _, hle⟩, _⟩ | ⟨h5, ⟨w, hw, hat, hel, _, hle⟩, _⟩
    · have := at_of_noBlank hw hat hb
      subst this
      have h1 : 0 < n.stop := by have := (parse_done h hn).lt; omega
      simp only [List.nil_append, List.length_nil, Nat.add_zero] at hat hle
      exact ⟨hat, by omega, fun _ => by omega⟩
    · have := at_of_noBlank hw hat hb
      subst this
      simp only [List.nil_append, List.length_nil, Nat.add_zero] at hat hle
      refine ⟨hat, hle, fun hx => ?_⟩
      rcases Nat.lt_or_eq_of_le hle with h1 | h1
      · exact h1
      · exfalso
        have hl : 0 < t'.length := List.length_pos_iff.2 hel.1
        obtain ⟨r, hr⟩ := hat
        have h6 := at_get hx
        have h7 : (src.drop (e + 2))[t'.length - 1]? = some 62 := by
          rw [List.getElem?_drop, ← h6]; congr 1; omega
        rw [show List.drop (e + 2) src = t' ++ r from hr, List.getElem?_append_left (by omega)] at h7
        have := hel.2.1 62 (List.mem_of_getElem? h7) (by omega)
        simp [alnum] at this

theorem start_name (h : parse u cs void src = .ok roots) (hn : InForest roots n) {t : Str}
    (ht : n.tag = some t) (hb : NoBlank src (n.start + 1)) : At src (n.start + 1) t := by
  have := (parse_done h hn).name.spec
  rw [ht] at this
  obtain ⟨w, h1, h2, h3, _⟩ := this
  have := at_of_noBlank h1 h2 hb
  subst this
  exact h2

theorem lowerByte_spec (s : Str) : s.map lowerByte = asciiLower s := rfl

/-- For case sensitive parsing, or of ASCII texts, the names of start and end tag have the same
length. -/
theorem sameName_len {t t' : Str} (h : SameName u cs (some t) (some t'))
    (ha : cs = true ∨ (isAscii t ∧ isAscii t')) :
    t'.length = t.length ∧ (if cs then t' = t else asciiLower t' = asciiLower t) := by
  unfold SameName at h
  cases cs with
  | true => simp at h; simp [h]
  | false =>
    simp at ha
    simp only [Bool.false_eq_true, if_false, Option.map_some, Option.some.injEq] at h ⊢
    have h1 : toLower u t = t.map lowerByte := by
      unfold toLower; rw [if_pos]; simpa [isAscii] using ha.1
    have h2 : toLower u t' = t'.map lowerByte := by
      unfold toLower; rw [if_pos]; simpa [isAscii] using ha.2
    rw [h1, h2] at h
    refine ⟨?_, h.symm⟩
    have := congrArg List.length h
    simpa using this.symm

theorem ascii_boundary (h : isAscii src) {i : Nat} (hi : i ≤ src.length) : isBoundary src i = true := by
  unfold isBoundary
  split
  · rfl
  · rw [List.getElem?_eq_getElem (by omega)]
    have := h src[i] (List.getElem_mem _)
    simp [isCont]; omega

/-! ### Names in texts that are not ASCII -/

theorem nameIs_bounds {i hi : Nat} {t : Str} (h : NameIs u src i (some t) hi) (hb : NoBlank src i) :
    At src i t ∧ isBoundary src i = true ∧ isBoundary src (i + t.length) = true ∧ i + t.length ≤ src.length := by
  obtain ⟨w, hw, hat, _, hbd, hlen⟩ := h.len t rfl
  obtain ⟨_, _, _, hel, _⟩ := h.spec
  have := at_of_noBlank hw hat hb
  subst this
  simp only [List.nil_append, List.length_nil, Nat.add_zero] at hat hbd hlen
  have h0 : 0 < t.length := List.length_pos_iff.2 hel.1
  have h1 := isBoundary_le hbd
  have h2 : isBoundary (src.drop i) (elementNameLen u (src.drop i)) = true := firstRunLen_boundary (by
    have : 0 < elementNameLen u (src.drop i) := by omega
    exact this)
  rw [hlen, isBoundary_drop h1] at h2
  exact ⟨hat, hbd, h2, isBoundary_le h2⟩

/-- The name behind `<` starts and ends between two characters. -/
theorem start_bounds (h : parse u cs void src = .ok roots) (hn : InForest roots n) {t : Str}
    (ht : n.tag = some t) (hb : NoBlank src (n.start + 1)) :
    At src (n.start + 1) t ∧ isBoundary src (n.start + 1) = true ∧ isBoundary src (n.start + 1 + t.length) = true ∧
      n.start + 1 + t.length ≤ src.length := by
  have := (parse_done h hn).name
  rw [ht] at this
  exact nameIs_bounds this hb

/-- The name behind `</` starts and ends between two characters. -/
theorem end_bounds (h : parse u cs void src = .ok roots) (hn : InForest roots n) {t : Str} {e : Nat}
    (ht : n.tag = some t) (he : n.endTagStart = some e) (hb : NoBlank src (e + 2)) :
    ∃ t', NameAfter src (e + 2) (some t') n.stop ∧ SameName u cs (some t) (some t') ∧ At src (e + 2) t' ∧
      isBoundary src (e + 2) = true ∧ isBoundary src (e + 2 + t'.length) = true ∧ e + 2 + t'.length ≤ src.length ∧
      (At src (n.stop - 1) b!">" → e + 2 + t'.length < n.stop) := by
  obtain ⟨t1, _, h1, h1', h1''⟩ := end_name h hn ht he hb
  obtain ⟨_, hlt, _, name, hsame, hn'⟩ := (parse_done h hn).ets e he
  rw [ht] at hsame
  obtain ⟨t', rfl⟩ : ∃ t', name = some t' := by
    cases name with
    | none => simp [SameName] at hsame
    | some t' => exact ⟨t', rfl⟩
  have hn'' : NameIs u src (e + 2) (some t') n.stop := by
    rcases hn' with hn' | hn'
    · exact hn'.2.mono (by omega)
    · exact hn'.2
  obtain ⟨h2, h3, h4, h5⟩ := nameIs_bounds hn'' hb
  refine ⟨t', hn''.spec, hsame, h2, h3, h4, h5, fun hx => ?_⟩
  obtain ⟨w, hw, hat, hel, _, hle⟩ := hn''.spec
  have := at_of_noBlank hw hat hb
  subst this
  simp only [List.length_nil, Nat.add_zero] at hle
  rcases Nat.lt_or_eq_of_le hle with h6 | h6
  · exact h6
  · exfalso
    have hl : 0 < t'.length := List.length_pos_iff.2 hel.1
    obtain ⟨r, hr⟩ := h2
    have h7 := at_get hx
    have h8 : (src.drop (e + 2))[t'.length - 1]? = some 62 := by
      rw [List.getElem?_drop, ← h7]; congr 1; omega
    rw [show List.drop (e + 2) src = t' ++ r from hr, List.getElem?_append_left (by omega)] at h8
    have := hel.2.1 62 (List.mem_of_getElem? h8) (by omega)
    simp [alnum] at this

theorem plain_names (hp : PlainNames cs src roots) (hn : InForest roots n) {t t' : Str} {e : Nat} (ht : n.tag = some t)
    (he : n.endTagStart = some e) (h : NameAfter src (e + 2) (some t') n.stop) (hs : SameName u cs (some t) (some t')) :
    t'.length = t.length ∧ (if cs then t' = t else asciiLower t' = asciiLower t) ∧ (t' = t ∨ (isAscii t ∧ isAscii t')) := by
  rcases hp with hc | hp
  · obtain ⟨h1, h2⟩ := sameName_len hs (.inl hc)
    refine ⟨h1, h2, .inl ?_⟩
    rw [if_pos hc] at h2
    exact h2
  · obtain ⟨h1, h2⟩ := hp n t hn ht
    have h3 := h2 e t' he h
    obtain ⟨h4, h5⟩ := sameName_len hs (.inr ⟨h1, h3⟩)
    exact ⟨h4, h5, .inr ⟨h1, h3⟩⟩

theorem plainNames_of_ascii (h : parse u cs void src = .ok roots) (ha : isAscii src) : PlainNames cs src roots := by
  refine .inr fun n t hn ht => ⟨?_, fun e t' _ hx => ?_⟩
  · obtain ⟨w, _, hat, _⟩ := ht ▸ (parse_done h hn).name.spec
    exact fun b hb => ha b (at_mem hat b (by simp [hb]))
  · obtain ⟨w, _, hat, _⟩ := hx
    exact fun b hb => ha b (at_mem hat b (by simp [hb]))

/-- Corresponding places of the two names are both between two characters, or both not. -/
theorem names_boundary {i j k : Nat} {t t' : Str} (h : At src i t) (h' : At src j t') (hl : t'.length = t.length)
    (hb : isBoundary src (i + t.length) = true) (hb' : isBoundary src (j + t'.length) = true) (hk : k ≤ t.length)
    (hp : t' = t ∨ (isAscii t ∧ isAscii t')) (hx : isBoundary src (i + k) = true) : isBoundary src (j + k) = true := by
  rcases Nat.lt_or_eq_of_le hk with h1 | rfl
  · obtain ⟨r, hr⟩ := h
    obtain ⟨r', hr'⟩ := h'
    have e1 : src[i + k]? = t[k]? := by
      rw [← List.getElem?_drop, show src.drop i = t ++ r from hr, List.getElem?_append_left h1]
    have e2 : src[j + k]? = t'[k]? := by
      rw [← List.getElem?_drop, show src.drop j = t' ++ r' from hr', List.getElem?_append_left (by omega)]
    rcases hp with rfl | ⟨_, ha⟩
    · have hg : t'[k]? = some (t'[k]'h1) := List.getElem?_eq_getElem h1
      rw [hg] at e1 e2
      refine isBoundary_of_get e2 ?_
      have hlt : i + k < src.length := (List.getElem?_eq_some_iff.1 e1).1
      unfold isBoundary at hx
      rw [if_neg (by omega), e1] at hx
      simpa using hx
    · have hg : t'[k]? = some (t'[k]'(by omega)) := List.getElem?_eq_getElem (by omega)
      rw [hg] at e2
      have := ha _ (List.getElem_mem (l := t') (n := k) (by omega))
      exact isBoundary_of_get e2 (by unfold isCont; simp; omega)
  · rw [← hl]; exact hb'

end Html
