import Verif.Proof.Reshape
import Verif.Proof.SelectionPanics
import Verif.Proof.PrintTotal

/-! # Formatting keeps texts that are UTF-8 UTF-8 -/

namespace Html
open Spec

/-- The text is UTF-8. -/
def Enc (s : Str) : Prop := ∃ cps, Utf8 cps s

theorem Enc.nil : Enc [] := ⟨[], ⟨by simp, rfl⟩⟩

theorem Enc.append {x y : Str} (hx : Enc x) (hy : Enc y) : Enc (x ++ y) := by
  obtain ⟨a, h1, rfl⟩ := hx
  obtain ⟨b, h2, rfl⟩ := hy
  exact ⟨a ++ b, fun c h => (List.mem_append.1 h).elim (h1 c) (h2 c), by rw [List.flatMap_append]⟩

theorem Enc.ascii {x : Str} (h : isAscii x) : Enc x := ⟨x, utf8_of_ascii h⟩

/-- The text is empty or begins with ASCII. -/
def Low (s : Str) : Prop := ∀ b, s.head? = some b → b < 128

theorem Enc.split {x y : Str} (h : Enc (x ++ y)) (hy : Low y) : Enc x ∧ Enc y := by
  obtain ⟨cps, h⟩ := h
  have hb : isBoundary (x ++ y) x.length = true := by
    cases y with
    | nil => simp [isBoundary]
    | cons b y =>
      have := hy b rfl
      exact isBoundary_of_get (b := b) (by simp) (by unfold isCont; simp; omega)
  obtain ⟨k, h1, h2⟩ := utf8_split h hb
  rw [List.take_left] at h1
  rw [List.drop_left] at h2
  exact ⟨⟨_, h1⟩, ⟨_, h2⟩⟩

theorem Enc.tail {b : Nat} {y : Str} (h : Enc (b :: y)) (hb : b < 128) : Enc y := by
  obtain ⟨cps, h⟩ := h
  obtain ⟨k, _, h2⟩ := utf8_split h (asciiNext_of_utf8 h 0 b rfl hb)
  exact ⟨_, h2⟩

theorem Enc.behind {w y : Str} (h : Enc (w ++ y)) (hw : isAscii w) : Enc y := by
  induction w with
  | nil => exact h
  | cons b w ih =>
    exact ih (h.tail (hw b List.mem_cons_self)) (fun x hx => hw x (List.mem_cons_of_mem _ hx))

theorem Low.append {x y : Str} (hx : Low x) (hy : Low y) : Low (x ++ y) := by
  cases x with
  | nil => exact hy
  | cons b x => intro c hc; exact hx c (by simpa using hc)

theorem headLow_ascii {x : Str} (h : isAscii x) : Low x := fun b hb => h b (List.mem_of_mem_head? hb)

/-! ### Characters -/

theorem headOk_flat {cps : List Nat} (h : ∀ c ∈ cps, c < 0x110000) : HeadOk (cps.flatMap encodeCP) := by
  intro b hb
  cases cps with
  | nil => cases hb
  | cons c cps =>
    obtain ⟨b', t, he, _, _, h3⟩ := encodeCP_cons c
    rw [List.flatMap_cons, he] at hb
    cases hb
    exact h3 (h c List.mem_cons_self)

theorem charsOf_utf8 {cps : List Nat} (h : ∀ c ∈ cps, c < 0x110000) :
    charsOf (cps.flatMap encodeCP) = cps.map encodeCP := by
  induction cps with
  | nil => rfl
  | cons c cps ih =>
    have h' : ∀ c ∈ cps, c < 0x110000 := fun x hx => h x (List.mem_cons_of_mem _ hx)
    rw [List.flatMap_cons, List.map_cons, charsOf_cons, ih h']
    obtain ⟨b, t, he, h1, h2, h3⟩ := encodeCP_cons c
    have h3 := h3 (h c List.mem_cons_self)
    by_cases hb : b < 128
    · exact .inl ⟨b, by omega, by rw [he, h2 hb]⟩
    · refine .inr ⟨b, t, ?_, he, ?_, headOk_flat h'⟩
      · unfold isCont at h3
        simp at h3
        omega
      · intro x hx
        have := h1 x hx
        unfold isCont
        simp
        omega

theorem Enc.of_chars {l : List Str} (h : ∀ c ∈ l, Enc c) : Enc l.flatten := by
  induction l with
  | nil => exact .nil
  | cons c l ih => exact (h c List.mem_cons_self).append (ih fun x hx => h x (List.mem_cons_of_mem _ hx))

theorem Enc.chars {s : Str} (h : Enc s) : ∀ c ∈ charsOf s, Enc c := by
  obtain ⟨cps, h1, rfl⟩ := h
  rw [charsOf_utf8 h1]
  intro c hc
  obtain ⟨x, hx, rfl⟩ := List.mem_map.1 hc
  exact ⟨[x], fun y hy => by rw [List.mem_singleton.1 hy]; exact h1 x hx, by simp⟩

theorem Enc.tidy {s : Str} (h : Enc s) : Enc (tidy s) := by
  refine .of_chars fun c hc => ?_
  rcases mem_collapse hc with rfl | hc
  · exact .ascii (by decide)
  · exact h.chars c ((trimC_sublist _).subset hc)

theorem Enc.trimLeft {s : Str} (h : Enc s) : Enc (trimLeftStr s) :=
  .of_chars fun c hc => h.chars c ((List.dropWhile_sublist (l := charsOf s) isBlankChar).subset hc)

/-! ### Texts -/

theorem linesOf_enc {s : Str} (h : Enc s) : ∀ l ∈ linesOf s, Enc l := by
  generalize hn : s.length = n
  induction n using Nat.strongRecOn generalizing s with
  | ind n ih =>
    intro l hl
    rcases line_cases s with h10 | ⟨a, b, rfl, h10⟩
    · by_cases hs : s = []
      · subst hs; cases hl
      · rw [linesOf_last h10 hs] at hl
        rw [List.mem_singleton.1 hl]
        exact h
    · rw [linesOf_split h10] at hl
      obtain ⟨h1, h2⟩ := h.split (fun c hc => by simp at hc; omega)
      rcases List.mem_cons.1 hl with rfl | hl
      · exact h1
      · exact ih b.length (by rw [← hn]; simp; omega) (h2.tail (by omega)) rfl l hl

theorem enc_layout {w : Str} (h : Layout w) : Enc w := .ascii (ascii_layout h)

theorem Enc.lines {o : FormatOptions} {k count : Nat} {nl : Bool} {i kept : Nat} {ls : List Str}
    (h : ∀ l ∈ ls, Enc l) : Enc (beautifyLines o k count nl i kept ls) := by
  induction ls generalizing i kept with
  | nil => exact .nil
  | cons l ls ih =>
    have ih := fun i kept => @ih i kept (fun x hx => h x (List.mem_cons_of_mem _ hx))
    have hi := enc_layout (Layout.indent o k)
    have hn := enc_layout Layout.newline
    unfold beautifyLines
    split
    · exact ((hn.append hi).append (h l List.mem_cons_self).tidy).append (ih _ _)
    · split
      · refine (hn.append ?_).append (ih _ _)
        split
        · exact hi
        · exact .nil
      · split <;> exact ih _ _

theorem Enc.beautify {o : FormatOptions} {k : Nat} {s : Str} (h : Enc s) : Enc (beautifyText o k s) := by
  unfold beautifyText
  split
  · exact .lines (linesOf_enc h)
  · exact h.tidy

theorem enc_indent (o : FormatOptions) (k : Nat) : Enc (10 :: indentation o k) := .ascii (ascii_indent o k)

theorem enc_close (o : FormatOptions) (k : Nat) (w : Bool) : Enc (closeText o k w) := .ascii (ascii_close o k w)

theorem Enc.leaf {o : FormatOptions} {k : Nat} {w : Bool} {s : Str} (h : Enc s) : Enc (leafFormat o k w s) := by
  unfold leafFormat
  refine .append ?_ (enc_close o k w)
  split
  · unfold leafBody
    split
    · exact (enc_indent o (k + 1)).append h.beautify.trimLeft
    · exact h.beautify
  · exact h.beautify

/-! ### Tags -/

theorem spaces_ascii {w : Str} (h : Spaces w) : isAscii w := by
  intro b hb
  have := h b hb
  unfold Space at this
  omega

theorem headLow_attr {a : AttrText} (h : a.Legal) : Low a.print := by
  obtain ⟨h1, h2, _⟩ := h
  intro b hb
  rw [attr_print] at hb
  cases hg : a.gap with
  | nil => exact absurd hg h1
  | cons c g =>
    rw [hg] at hb
    simp at hb
    exact spaces_ascii h2 b (by rw [hg, hb]; exact List.mem_cons_self)

theorem headLow_attrs {l : List AttrText} (h : ∀ a ∈ l, a.Legal) : Low (printAttrs l) := by
  induction l with
  | nil => intro b hb; cases hb
  | cons a l ih =>
    exact (headLow_attr (h a List.mem_cons_self)).append (ih fun x hx => h x (List.mem_cons_of_mem _ hx))

theorem Enc.attrs {sep : Str} (hs : Enc sep) {l : List AttrText} (hl : ∀ a ∈ l, a.Legal) (h : Enc (printAttrs l)) :
    Enc (printAttrs (l.map (fun a => ⟨sep, a.name, a.value⟩))) := by
  induction l with
  | nil => exact h
  | cons a l ih =>
    have hl' : ∀ a ∈ l, a.Legal := fun x hx => hl x (List.mem_cons_of_mem _ hx)
    rw [printAttrs] at h
    obtain ⟨h1, h2⟩ := h.split (headLow_attrs hl')
    rw [List.map_cons, printAttrs, attr_print]
    rw [attr_print] at h1
    exact (hs.append (h1.behind (spaces_ascii (hl a List.mem_cons_self).2.1))).append (ih hl' h2)

theorem Enc.tag {o : FormatOptions} {k : Nat} {single : Bool} {t : TagText} (hl : t.Legal) (h : Enc t.print) :
    Enc (tagFormat o k single t).print ∧ Enc t.name := by
  unfold TagText.print at h ⊢
  rw [List.append_assoc] at h
  obtain ⟨h1, h2⟩ := h.split ((headLow_attrs hl.1.1).append (headLow_ascii (spaces_ascii hl.2)))
  obtain ⟨h2, h3⟩ := h2.split (headLow_ascii (spaces_ascii hl.2))
  refine ⟨(h1.append ?_).append ?_, h1.behind (by decide)⟩
  · refine .attrs ?_ hl.1.1 h2
    split
    · have := enc_layout (Layout.append Layout.newline (Layout.attrIndent o k))
      rw [attrIndentation_eq] at this
      exact this
    · exact .ascii (by decide)
  · unfold tagFormat
    dsimp only
    split
    · exact enc_indent o k
    · split <;> exact .ascii (by decide)

/-! ### Documents -/

theorem El.close (e : El) : ∃ y, e.print = y ++ [62] := by
  cases e with
  | elem tag kids gap => exact ⟨tag.print ++ b!">" ++ kids.print ++ (b!"</" ++ tag.name ++ gap), by simp [El.print]⟩
  | single tag slash =>
    cases slash
    · exact ⟨tag.print, rfl⟩
    · exact ⟨tag.print ++ b!"/", by simp [El.print]⟩

theorem Enc.flow {g x y z : Str} {b : Nat} (h : Enc (g ++ (60 :: x ++ y))) (he : 60 :: x = z ++ [b]) (hb : b < 128) :
    Enc g ∧ Enc (60 :: x) ∧ Enc y := by
  obtain ⟨h1, h2⟩ := h.split (fun c hc => by simp at hc; omega)
  rw [he, List.append_assoc] at h2
  obtain ⟨h3, h4⟩ := h2.split (fun c hc => by simp at hc; omega)
  rw [he]
  exact ⟨h1, h3.append (.ascii (by intro c hc; rw [List.mem_singleton.1 hc]; exact hb)), h4.tail hb⟩

mutual
theorem El.format_enc {void : List Str} {o : FormatOptions} {k : Nat} (e : El) (hl : e.Legal void) (h : Enc e.print) :
    Enc (e.format o k).print := by
  match e, hl, h with
  | .single tag slash, hl, h =>
    simp only [El.format, El.print, if_true, El.Legal] at h hl ⊢
    have h1 := (h.split (by intro b hb; cases slash <;> simp at hb <;> omega)).1
    exact (Enc.tag hl.1 h1).1.append (.ascii (by decide))
  | .elem tag kids gap, hl, h =>
    simp only [El.format, El.print, El.Legal] at h hl ⊢
    obtain ⟨h1, h2⟩ := h.split (fun c hc => by simp at hc; omega)
    rw [List.append_assoc] at h1
    obtain ⟨h3, h4⟩ := h1.split (fun c hc => by simp at hc; omega)
    have h4 := h4.behind (by decide)
    obtain ⟨h5, h6⟩ := Enc.tag (o := o) (k := k) (single := false) hl.1 h3
    have c1 : ∀ w, isAscii w → Enc w := fun w => Enc.ascii
    refine ((h5.append (c1 _ (by decide))).append ?_).append ((((c1 _ (by decide)).append h6).append (c1 _ (by decide))).append (c1 _ (by decide)))
    split
    · simp only [Flow.print]
      exact h4.leaf
    · rename_i hk
      refine Flow.format_enc (void := void) kids ?_ h4 (enc_close o k _)
      rcases hl.2.2.2 with h | ⟨body, h, _⟩
      · exact h.2
      · subst h
        exact absurd rfl hk
theorem Flow.format_enc {void : List Str} {o : FormatOptions} {k : Nat} (f : Flow) (hl : f.Legal void) (h : Enc f.print)
    {close : Str} (hc : Enc close) : Enc (f.format o k close).print := by
  match f, hl, h with
  | .last t, hl, h =>
    simp only [Flow.format, Flow.print] at h ⊢
    exact h.beautify.append hc
  | .cons g e r, hl, h =>
    simp only [Flow.format, Flow.print, Flow.Legal] at h hl ⊢
    obtain ⟨x, hx⟩ := e.bracket
    obtain ⟨z, hz⟩ := e.close
    rw [hx] at h hz
    obtain ⟨h1, h2, h3⟩ := h.flow hz (by omega)
    rw [← hx] at h2
    refine .append ?_ ((El.format_enc e hl.2.1 h2).append (Flow.format_enc r hl.2.2 h3 hc))
    unfold gapText
    exact h1.beautify.append (enc_indent o k)
end

/-- A formatted document is UTF-8. -/
theorem Flow.roots_enc {void : List Str} {o : FormatOptions} {f : Flow} (hl : f.Legal void) (h : Enc f.print) :
    Enc (f.roots o).print := by
  induction f using Flow.roots.induct with
  | case1 t =>
    simp only [Flow.roots, Flow.print]
    split <;> exact .ascii (by decide)
  | case2 g e r ih =>
    simp only [Flow.roots, Flow.print, Flow.Legal] at h hl ⊢
    obtain ⟨x, hx⟩ := e.bracket
    obtain ⟨z, hz⟩ := e.close
    rw [hx] at h hz
    obtain ⟨h1, h2, h3⟩ := h.flow hz (by omega)
    rw [← hx] at h2
    exact .append (.ascii (by decide)) ((El.format_enc e hl.2.1 h2).append (ih hl.2.2 h3))

/-- A document is parsed. -/
theorem Flow.parse_returns (u : Uni) (cs : Bool) {void : List Str} {f : Flow} (hl : f.Legal void) (h : Enc f.print) :
    Html.parse u cs void f.print = .ok (f.nodes 0) := by
  obtain ⟨items, h1, h2, _⟩ := f.toItems hl
  obtain ⟨cps, hu⟩ := h
  obtain ⟨roots, h⟩ := parse_print_ok (u := u) (cs := cs) h1 (by rw [h2]; exact hu)
  rw [h2] at h
  rw [h, Flow.parse hl h]

/-- A document is formatted. -/
theorem Flow.format_ok (u : Uni) (cs : Bool) {void : List Str} (o : FormatOptions) {f : Flow} (hl : f.Legal void)
    (h : Enc f.print) : Html.htmlBeautify u cs void o (trimLeftStr f.print) = .ok (f.roots o).print := by
  obtain ⟨f', h1, h2, _, _⟩ := Flow.trim o hl
  have hp := Flow.parse_returns u cs h1 (by rw [h2]; exact h.trimLeft)
  rw [h2] at hp
  obtain ⟨cps, hu⟩ := h
  obtain ⟨t, ht⟩ := (htmlBeautify_iff (o := o) (asciiNext_trim (asciiNext_of_utf8 hu)) hp).2
    (fun m hm => Flow.named hm)
  rw [ht, Flow.formatText hl ht]

end Html
