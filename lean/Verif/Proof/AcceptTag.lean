import Verif.Spec.AcceptTag
import Verif.Proof.AcceptValue
import Verif.Props.TagProposals

/-! # Accepting the name of an element -/

namespace Html
open Spec Props

variable {u : Uni} {cs : Bool} {void : List Str} {src : Str} {roots : List Node} {ts : List Tok}

theorem nameRest_other {b : Nat} (h : b < 128) (h2 : ¬ NameByte b) : nameRest u b = false ∧ nameFirst u b = false := by
  unfold NameByte alnum at h2
  unfold nameRest nameFirst isWordCP isWordAscii
  simp only [h, if_true, Bool.or_eq_false_iff, beq_eq_false_iff_ne, decide_eq_false_iff_not, Bool.and_eq_false_iff]
  omega

theorem runLen_all {q : Nat → Bool} {k : Str} (hk : ∀ b ∈ k, b < 128 ∧ q b = true) : runLen q k = k.length := by
  induction k with
  | nil => rfl
  | cons b k ih =>
    have hb := hk b (by simp)
    have h1 : isCont b = false := by simp [isCont]; omega
    have := ih (fun b hb => hk b (by simp [hb]))
    simp only [runLen, h1, Bool.false_eq_true, if_false, codePoint, hb.1, if_true, hb.2, this, List.length_cons]
    omega

theorem nameLen_ends {w y : Str} (hw : TagName w) (hy : NameEnds y) : elementNameLen u (w ++ y) = w.length := by
  obtain ⟨⟨a, k, rfl, ha⟩, hb⟩ := hw
  unfold elementNameLen
  cases y with
  | nil =>
    rw [List.append_nil]
    simp only [firstRunLen, codePoint, (nameFirst_of_byte (u := u) ha).1, if_true, (nameFirst_of_byte (u := u) ha).2,
      runLen_all (q := nameRest u) (k := k) fun b hm => nameRest_of_byte (hb b (by simp [hm]))]
    simp [Nat.add_comm]
  | cons x t =>
    obtain ⟨h1, h2⟩ := hy x rfl
    rw [firstRunLen_exact (nameFirst_of_byte (u := u) ha).1 (nameFirst_of_byte ha).2
      (fun b hm => nameRest_of_byte (hb b (by simp [hm]))) h1 (nameRest_other h1 h2).1]
    simp

theorem nameLen_none {y : Str} (hy : NameEnds y) : elementNameLen u y = 0 := by
  unfold elementNameLen
  cases y with
  | nil => rfl
  | cons x t =>
    obtain ⟨h1, h2⟩ := hy x rfl
    simp [firstRunLen, codePoint, h1, (nameRest_other (u := u) h1 h2).2]

theorem Step.invName {c : Cfg} {s s' : Sc} (h : Step c s s') (hs : s.state = .AfterOpeningStartTag)
    (hp : s.pos < c.src.length) :
    (0 < elementNameLen c.uni (rest c s) ∧ s'.tokenType = .StartTag ∧ s'.tokenOffset = s.pos ∧
      s'.pos = s.pos + elementNameLen c.uni (rest c s)) ∨
    (elementNameLen c.uni (rest c s) = 0 ∧ s'.tokenType ≠ .StartTag) := by
  cases h <;> first
    | (exfalso; omega)
    | (exfalso; simp_all; done)
    | skip
  · rename_i h0
    exact .inl ⟨h0, rfl, rfl, rfl⟩
  all_goals exact .inr ⟨‹_›, by simp [fin]⟩

/-- In content follows a start tag. -/
theorem stream_bracket {c : Cfg} {s : Sc} {l : List Tok} {t x : Str} {i : Nat} (h : Stream c s l) (hs : InText s i)
    (hd : c.src.drop i = t ++ 60 :: x) (ht : 60 ∉ t) (hx : x.head? ≠ some 47 ∧ x.head? ≠ some 33) :
    ∃ pre tk post s', l = pre ++ tk :: post ∧ tk.type = .StartTagOpen ∧ tk.offset = i + t.length ∧ tk.stop = i + t.length + 1 ∧
      Stream c s' post ∧ s'.state = .AfterOpeningStartTag ∧ s'.pos = i + t.length + 1 := by
  have first : ∀ {s : Sc} {l : List Tok} {i : Nat}, Stream c s l → InText s i → c.src.drop i = 60 :: x →
      ∃ pre tk post s', l = pre ++ tk :: post ∧ tk.type = .StartTagOpen ∧ tk.offset = i ∧ tk.stop = i + 1 ∧
        Stream c s' post ∧ s'.state = .AfterOpeningStartTag ∧ s'.pos = i + 1 := by
    intro s l i h hs hd
    have hp : s.pos < c.src.length := hs.pos ▸ pos_lt hd
    have hr := rest_eq hs.pos hd
    cases l with
    | nil =>
      obtain ⟨s1, h1, h2⟩ := h.nil
      have := (scan_step h1).eos_iff.1 h2
      omega
    | cons tk l =>
      obtain ⟨s1, h1, h2, rfl, h3⟩ := h.cons
      clear h
      have h1 := (scan_step h1).invContent hs.state hp
      have hx : ∀ b y, x = b :: y → b ≠ 47 ∧ lowerByte b ≠ 33 ∧ b ≠ 33 := by
        rintro b y rfl
        have e1 : b ≠ 47 := fun e => hx.1 (by rw [e]; rfl)
        have e2 : b ≠ 33 := fun e => hx.2 (by rw [e]; rfl)
        refine ⟨e1, ?_, e2⟩
        unfold lowerByte
        split <;> omega
      refine ⟨[], _, l, s1, rfl, ?_⟩
      cases h1 with
      | startComment h =>
        rw [hr] at h
        cases x with
        | nil => simp at h
        | cons b y => have := hx b y rfl; simp at h; omega
      | startDoctype h =>
        rw [hr] at h
        cases x with
        | nil => simp [lowerByte] at h
        | cons b y => have := (hx b y rfl).2.1; simp [lowerByte] at h; unfold lowerByte at this; omega
      | endTagOpen h =>
        rw [hr] at h
        cases x with
        | nil => simp at h
        | cons b y => have := hx b y rfl; simp at h; omega
      | content h0 h1 => rw [hr] at h0; simp at h0
      | startTagOpen => 
        refine ⟨rfl, hs.pos, ?_, h3, rfl, ?_⟩
        · show s.pos + 1 = i + 1
          rw [hs.pos]
        · show s.pos + 1 = i + 1
          rw [hs.pos]
  cases t with
  | nil => exact first h hs hd
  | cons b t =>
    have hp : s.pos < c.src.length := hs.pos ▸ pos_lt hd
    have hr := rest_eq hs.pos hd
    cases l with
    | nil =>
      obtain ⟨s1, h1, h2⟩ := h.nil
      have := (scan_step h1).eos_iff.1 h2
      omega
    | cons tk l =>
      obtain ⟨s1, h1, h2, rfl, h3⟩ := h.cons
      clear h
      have h1 := (scan_step h1).invContent hs.state hp
      simp only [List.mem_cons, not_or] at ht
      have hb : b ≠ 60 := fun e => ht.1 e.symm
      have hu : untilByte 60 (rest c s) = t.length + 1 := by
        rw [hr, untilByte_append (by simp [ht])]; simp [untilByte]
      cases h1 with
      | startComment h => rw [hr] at h; simp at h; omega
      | startDoctype h => rw [hr] at h; simp [lowerByte] at h; split at h <;> omega
      | endTagOpen h => rw [hr] at h; simp at h; omega
      | startTagOpen h => rw [hr] at h; simp at h; omega
      | content h0 h1 =>
        obtain ⟨pre, tk, post, s', h4, h5⟩ := first h3 (i := i + (t.length + 1)) ⟨hs.state, by simp only [fin, adv, hu, hs.pos]⟩
          (drop_add hd (by simp))
        exact ⟨_ :: pre, tk, post, s', by rw [h4]; rfl, h5⟩

/-- The tokens of a start tag behind a text that ends in content. -/
theorem open_toks {a w y : Str} (ha : EndsInContent u cs a) (hw : BeginsTag w y)
    (h : tokens (parserCfg u cs (a ++ 60 :: (w ++ y))) (.new 0 .WithinContent) = .ok ts) :
    ∃ pre tk post, ts = pre ++ tk :: post ∧ tk.type = .StartTagOpen ∧ tk.offset = a.length ∧ tk.stop = a.length + 1 ∧
      (TagName w → ∃ x post', post = x :: post' ∧ x.type = .StartTag ∧ x.offset = a.length + 1 ∧ x.stop = a.length + 1 + w.length) ∧
      (w = [] → ∀ x post', post = x :: post' → x.type ≠ .StartTag) := by
  have hx : (w ++ y).head? ≠ some 47 ∧ (w ++ y).head? ≠ some 33 := by
    rcases hw.2 with h1 | h1
    · obtain ⟨⟨b, k, rfl, hb⟩, _⟩ := h1
      refine ⟨?_, ?_⟩ <;> intro h <;> simp at h <;> subst h <;> revert hb <;> simp [NameStartByte, alnum]
    · rw [h1.1]; exact h1.2
  suffices H : ∃ pre tk post s', ts = pre ++ tk :: post ∧ tk.type = .StartTagOpen ∧ tk.offset = a.length ∧
      tk.stop = a.length + 1 ∧ Stream (parserCfg u cs (a ++ 60 :: (w ++ y))) s' post ∧ s'.state = .AfterOpeningStartTag ∧
      s'.pos = a.length + 1 by
    obtain ⟨pre, tk, post, s', h1, h2, h3, h4, h5, h6, h7⟩ := H
    have hd : (parserCfg u cs (a ++ 60 :: (w ++ y))).src.drop (a.length + 1) = w ++ y := by
      rw [show (parserCfg u cs (a ++ 60 :: (w ++ y))).src = (a ++ [60]) ++ (w ++ y) by simp [parserCfg],
        show a.length + 1 = (a ++ [60]).length by simp, List.drop_left]
    refine ⟨pre, tk, post, h1, h2, h3, h4, fun hn => ?_, fun hn x post' hp => ?_⟩
    · have hr := rest_eq h7 hd
      have hlen := nameLen_ends (u := u) hn hw.1
      have hpos : 0 < w.length := by
        obtain ⟨⟨b, k, rfl, hb⟩, _⟩ := hn; simp
      have hp : s'.pos < (parserCfg u cs (a ++ 60 :: (w ++ y))).src.length := by
        rw [h7]; simp [parserCfg]; omega
      cases post with
      | nil =>
        obtain ⟨s1, g1, g2⟩ := h5.nil
        have := (scan_step g1).eos_iff.1 g2
        omega
      | cons x post' =>
        obtain ⟨s1, g1, g2, rfl, g3⟩ := h5.cons
        clear h5
        refine ⟨_, post', rfl, ?_⟩
        have hl : elementNameLen u (rest (parserCfg u cs (a ++ 60 :: (w ++ y))) s') = w.length := by rw [hr]; exact hlen
        rcases (scan_step g1).invName h6 hp with ⟨e1, e2, e3, e4⟩ | ⟨e1, e2⟩
        · have e4 : s1.pos = s'.pos + elementNameLen u (rest (parserCfg u cs (a ++ 60 :: (w ++ y))) s') := e4
          exact ⟨e2, e3.trans h7, by show s1.pos = _; omega⟩
        · have e1 : elementNameLen u (rest (parserCfg u cs (a ++ 60 :: (w ++ y))) s') = 0 := e1
          omega
    · subst hp
      subst hn
      obtain ⟨s1, g1, g2, rfl, g3⟩ := h5.cons
      have hr := rest_eq h7 hd
      have hl : elementNameLen u (rest (parserCfg u cs (a ++ 60 :: ([] ++ y))) s') = 0 := by rw [hr]; exact nameLen_none hw.1
      have hp : s'.pos < (parserCfg u cs (a ++ 60 :: ([] ++ y))).src.length := by
        refine Classical.byContradiction fun hp => g2 ((scan_step g1).eos_iff.2 (by omega))
      rcases (scan_step g1).invName h6 hp with ⟨e1, _⟩ | ⟨e1, e2⟩
      · have e1 : 0 < elementNameLen u (rest (parserCfg u cs (a ++ 60 :: ([] ++ y))) s') := e1
        omega
      · exact e2
  obtain ⟨a, t, rfl, ht, ha⟩ := ha
  have hs : Stream (parserCfg u cs (a ++ t ++ 60 :: (w ++ y))) (.new 0 .WithinContent) ts := tokensF_run h
  have hd : (parserCfg u cs (a ++ t ++ 60 :: (w ++ y))).src.drop a.length = t ++ 60 :: (w ++ y) := by
    simp [parserCfg]
  rcases ha with rfl | ⟨i, tk, hb, hst⟩
  · obtain ⟨pre, k, post, s', h1⟩ := stream_bracket hs ⟨rfl, rfl⟩ hd ht hx
    refine ⟨pre, k, post, s', ?_⟩
    simpa [Sc.new] using h1
  · obtain ⟨z, hz, hw, _, h1⟩ := hb.split
    have hz : a = z ++ [62] := hz
    obtain ⟨s2, hr, hlen⟩ := tokens_run hb.toks
    have G : Agree z (parserCfg u cs a) (parserCfg u cs (a ++ t ++ 60 :: (w ++ y))) :=
      ⟨⟨[], hz⟩, ⟨t ++ 60 :: (w ++ y), by simp [parserCfg, hz]⟩, rfl, rfl, rfl, hw⟩
    have hrx := hr.keeps G (Nat.zero_le _) rfl h1 hb.kind hb.nonempty
    have hl := hr.last
    have hs2 : s2.state = .WithinContent := by rw [← hst, ← hl]; rfl
    have hpos : s2.pos = a.length := by
      have : tk.stop = s2.pos := by rw [← hl]; rfl
      rw [hz]; simp; omega
    obtain ⟨l', e, h2⟩ := hrx.after hs
    obtain ⟨pre, k, post, s', h3, h4, h5, h6, h7⟩ := stream_bracket h2 ⟨hs2, hpos⟩ hd ht hx
    refine ⟨i ++ [tk] ++ pre, k, post, s', by rw [e, h3]; simp, h4, by rw [h5]; simp, by rw [h6]; simp, ?_⟩
    simpa using h7

theorem name_ends {name y : Str} (hn : TagName name) (hy : NameEnds y) {i hi : Nat} (hd : src.drop i = name ++ y)
    {o : Option Str} (h : NameAfter src i o hi) : o = some name := by
  obtain ⟨⟨c, k, e, hc⟩, hall⟩ := hn
  have at0 : src[i]? = some c := by
    have := congrArg (·[0]?) hd
    simpa [List.getElem?_drop, e] using this
  have hcs : ¬ Space c := by
    intro h; revert hc
    rcases h with rfl | rfl | rfl | rfl | rfl <;> simp [NameStartByte, alnum]
  have hw : ∀ {w : Str} {r : Str}, Spaces w → At src i (w ++ r) → w = [] := by
    rintro (_ | ⟨d, w⟩) r hw ⟨r', hr⟩
    · rfl
    · exfalso
      have := congrArg (·[0]?) hr
      simp only [List.getElem?_drop, Nat.add_zero, at0] at this
      simp at this
      exact hcs (this ▸ hw d (by simp))
  cases o with
  | none =>
    obtain ⟨w, h1, h2, h3, _⟩ := h
    have := hw (r := []) h1 (by simpa using h2)
    subst this
    exact absurd hc (h3 c (by simpa using at0))
  | some t =>
    obtain ⟨w, h1, h2, h3, h4, _⟩ := h
    have := hw h1 h2
    subst this
    obtain ⟨r, hr⟩ := h2
    simp only [List.nil_append, List.length_nil, Nat.add_zero] at hr h4
    rw [hd] at hr
    rcases Nat.lt_trichotomy t.length name.length with hlt | heq | hgt
    · exfalso
      have hm : name[t.length]? = some name[t.length] := List.getElem?_eq_getElem hlt
      refine h4 name[t.length] ?_ (hall _ (List.getElem_mem hlt))
      have := congrArg (·[t.length]?) hd
      simp only [List.getElem?_drop, List.getElem?_append_left hlt, hm] at this
      exact this
    · rw [(List.append_inj hr heq.symm).1]
    · exfalso
      have := congrArg (·[name.length]?) hr
      simp only [List.getElem?_append_left hgt, List.getElem?_append_right (Nat.le_refl _), Nat.sub_self,
        List.getElem?_eq_getElem hgt] at this
      obtain ⟨h5, h6⟩ := hy t[name.length] (by rw [List.head?_eq_getElem?]; exact this)
      have := h3.2.1 _ (List.getElem_mem hgt) h5
      exact h6 (by unfold NameByte; exact this)

/-- The element of a start tag with this name. -/
theorem named_node {a name y : Str} (ha : EndsInContent u cs a) (hn : TagName name) (hy : NameEnds y)
    (h : parse u cs void (a ++ 60 :: (name ++ y)) = .ok roots) :
    ∃ n, InForest roots n ∧ n.start = a.length ∧ n.tag = some name := by
  obtain ⟨ts, hts, _⟩ := C13_one_node_per_bracket _ _ _ _ _ h
  have hD : Doc u cs void _ roots ts := ⟨h, hts⟩
  obtain ⟨pre, tk, post, h1, h2, h3, _⟩ := open_toks (w := name) (y := y) ha ⟨hy, .inl hn⟩ hts
  obtain ⟨n, hn1, hn2⟩ := hD.tok_node (t := tk) (by rw [h1]; simp) h2
  refine ⟨n, hn1, by omega, ?_⟩
  refine name_ends hn hy ?_ (parse_done h hn1).name.spec
  rw [show n.start + 1 = (a ++ [60]).length by simp; omega,
    show a ++ 60 :: (name ++ y) = (a ++ [60]) ++ (name ++ y) by simp]
  exact List.drop_left

theorem accept_tag {e : CompEnv} {d : TextDoc} {cps : List Nat} {position : Pos} {o : Nat} {r : List CompItem} {a w y : Str}
    {k : TagData} (hu : Utf8 cps d.text) (hl : Lawful d) (ha : EndsInContent e.uni e.caseSensitive a) (hw : BeginsTag w y)
    (ht : d.text = a ++ 60 :: (w ++ y)) (h : parse e.uni e.caseSensitive void d.text = .ok roots)
    (ho : d.offsetAt position = o) (h1 : a.length < o) (h2 : o ≤ a.length + 1 + w.length)
    (hr : doComplete e d position roots = .ok r) (hk : k ∈ knownTags e) :
    ∃ i ∈ r, i.label = k.name ∧ ∃ te, i.textEdit = some te ∧ applyEdits d [te] = a ++ 60 :: (k.name ++ y) := by
  obtain ⟨ts, hts, _⟩ := C13_one_node_per_bracket _ _ _ _ _ h
  have hD : Doc e.uni e.caseSensitive void d.text roots ts := ⟨h, hts⟩
  have hts' := hts
  rw [ht] at hts'
  obtain ⟨pre, tk, post, g1, g2, g3, g4, g5, g6⟩ := open_toks ha hw hts'
  have hb1 : isBoundary d.text (a.length + 1) = true := by
    obtain ⟨hu1, hu2⟩ := id hu
    have := utf8_ascii_next (cps := cps) hu1 (i := a.length) (b := 60) (by rw [← hu2, ht]; simp) (by decide)
    rw [hu2]; exact this
  have hb2 : isBoundary d.text (a.length + 1 + w.length) = true := by
    rcases hw.2 with hn | ⟨rfl, _⟩
    · have hpos : 0 < w.length := by obtain ⟨⟨b, k, rfl, hb⟩, _⟩ := hn; simp
      obtain ⟨hu1, hu2⟩ := id hu
      have hlt : w.length - 1 < w.length := by omega
      have := utf8_ascii_next (cps := cps) hu1 (i := a.length + 1 + (w.length - 1)) (b := w[w.length - 1]) (by
        rw [← hu2, ht, show a ++ 60 :: (w ++ y) = (a ++ [60]) ++ (w ++ y) by simp,
          List.getElem?_append_right (by simp), List.getElem?_append_left (by simp; omega)]
        rw [show a.length + 1 + (w.length - 1) - List.length (a ++ [60] : Str) = w.length - 1 by simp]
        exact List.getElem?_eq_getElem hlt) (hn.ascii _ (List.getElem_mem hlt))
      rw [show a.length + 1 + (w.length - 1) + 1 = a.length + 1 + w.length by omega] at this
      rw [hu2]; exact this
    · exact hb1
  have happ := applyEdits_one (w := k.name) hl (x := a ++ [60]) (y := w) (z := y) (by rw [ht]; simp)
    (by simpa using hb1) (by simpa using hb2)
  simp only [List.length_append, List.length_singleton] at happ
  have fin : (k.name, some (⟨⟨d.posAt (a.length + 1), d.posAt (a.length + 1 + w.length)⟩, k.name⟩ : TextEdit)) ∈ edits r →
      ∃ i ∈ r, i.label = k.name ∧ ∃ te, i.textEdit = some te ∧ applyEdits d [te] = a ++ 60 :: (k.name ++ y) := by
    intro hm
    obtain ⟨i, hi, e1, e2⟩ := mem_edits hm
    exact ⟨i, hi, e1, _, e2, by rw [happ]; simp⟩
  rcases Nat.lt_or_ge (a.length + 1) o with h3 | h3
  · have hn : TagName w := by
      rcases hw.2 with hn | ⟨rfl, _⟩
      · exact hn
      · simp at h2; omega
    obtain ⟨x, post', rfl, k1, k2, k3⟩ := g5 hn
    have := C58_in_name e void d position roots (pre ++ [tk]) post' x o r h (by rw [hts, g1]; simp) ho (by omega) (by omega) k1 hr
    refine fin ?_
    rw [this, k2, k3]
    exact List.mem_map.2 ⟨k, hk, rfl⟩
  · obtain rfl : o = a.length + 1 := by omega
    obtain ⟨n, ps, doctype, tags, close, c1, c2, c3, c4, c5, c6⟩ := C58_behind_bracket e void d cps position roots pre post tk
      (a.length + 1) r hu h (by rw [hts, g1]) ho g4 g2 hr
    have hne : nameEnd .StartTag (a.length + 1) post = a.length + 1 + w.length := by
      rcases hw.2 with hn | ⟨rfl, _⟩
      · obtain ⟨x, post', rfl, k1, k2, k3⟩ := g5 hn
        simp [nameEnd, k1, k3]
      · cases post with
        | nil => rfl
        | cons x post' =>
          have := g6 rfl x post' rfl
          simp [nameEnd, this]
    refine fin ?_
    rw [hne] at c5
    rw [c3]
    unfold edits at c5 ⊢
    rw [List.map_append, List.map_append, c5]
    refine List.mem_append_right _ (List.mem_append_left _ ?_)
    exact List.mem_map.2 ⟨k, hk, rfl⟩

end Html
