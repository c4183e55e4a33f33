import Verif.Spec.AcceptName
import Verif.Proof.AcceptTag
import Verif.Props.Proposals

/-! # Accepting the name of an attribute -/

namespace Html
open Spec Props

variable {u : Uni} {cs : Bool} {void : List Str} {src : Str} {roots : List Node} {ts : List Tok}

/-! ### White space in a start tag -/

theorem wsLen_ge {w x : Str} (hw : Spaces w) : w.length ≤ wsLen (w ++ x) := by
  induction w with
  | nil => simp
  | cons b w ih =>
    have h1 := isWs_of_space (hw b (by simp))
    have := ih (fun c hc => hw c (by simp [hc]))
    simp only [List.cons_append, wsLen, h1, if_true, List.length_cons]
    omega

/-- The state behind the parts of a start tag. -/
theorem Step.part_state {c : Cfg} {s s' : Sc} (h : Step c s s')
    (hk : s'.tokenType = .StartTag ∨ s'.tokenType = .AttributeName ∨ s'.tokenType = .AttributeValue ∨
      s'.tokenType = .DelimiterAssign) :
    s'.state = .WithinTag ∨ s'.state = .AfterAttributeName ∨ s'.state = .BeforeAttributeValue := by
  cases h
  case content hx => cases hx <;> simp_all [fin]
  case endTag hx => cases hx <;> simp_all [fin]
  case tag hx => cases hx <;> simp_all [fin]
  case afterNameTag hx => cases hx <;> simp_all [fin]
  case valueTag hx => cases hx <;> simp_all [fin]
  case scriptContent hx => cases hx <;> simp_all [fin]
  case styleContent hx => cases hx <;> simp_all [fin]
  all_goals simp_all [fin]

theorem ws_head {r : Str} (h : 0 < wsLen r) : ∃ b t, r = b :: t ∧ isWs b = true := by
  cases r with
  | nil => simp [wsLen] at h
  | cons b t =>
    by_cases hb : isWs b = true
    · exact ⟨b, t, rfl, hb⟩
    · simp [wsLen, hb] at h

theorem StepTag.blank {c : Cfg} {s s' : Sc} (h : StepTag c s s') (hw : 0 < wsLen (rest c s)) :
    s'.tokenType = .Whitespace ∧ s'.tokenOffset = s.pos ∧ s'.pos = s.pos + wsLen (rest c s) := by
  obtain ⟨b, t, e, hb⟩ := ws_head hw
  have h62 : b ≠ 62 := by rintro rfl; cases hb
  have h60 : b ≠ 60 := by rintro rfl; cases hb
  have h47 : b ≠ 47 := by rintro rfl; cases hb
  cases h with
  | ws h => exact ⟨rfl, rfl, rfl⟩
  | attrName hs hw' => omega
  | selfClose s1 hp h => rw [e] at h; simp [List.isPrefixOf] at h; exact absurd h.1.symm h47
  | close s1 hp h => rw [e] at h; simp at h; exact absurd h h62
  | pseudo s1 hp he h => rw [e] at h; simp at h; exact absurd h h60
  | unknown s1 hp h0 => omega

theorem Step.blank {c : Cfg} {s s' : Sc} (h : Step c s s') (hs : s.state = .WithinTag ∨ s.state = .AfterAttributeName ∨ s.state = .BeforeAttributeValue)
    (hp : s.pos < c.src.length) (hw : 0 < wsLen (rest c s)) :
    s'.tokenType = .Whitespace ∧ s'.tokenOffset = s.pos ∧ s'.pos = s.pos + wsLen (rest c s) := by
  rcases hs with hs | hs | hs
  all_goals
    cases h
    case eos => omega
    case tag hx => exact hx.blank hw
    case valueWs => exact ⟨rfl, rfl, rfl⟩
    case afterNameWs => exact ⟨rfl, rfl, rfl⟩
    all_goals (exfalso; simp_all; done)

theorem lastBracket_of_open' (p : List TT) (h : lastNonWs p.reverse = some .StartTagOpen) :
    lastBracket p.reverse = some .StartTagOpen := by
  induction p with
  | nil => cases h
  | cons t p ih =>
    rw [List.reverse_cons, lastNonWs_append] at h
    rw [List.reverse_cons, lastBracket_append]
    by_cases ht : t = .Whitespace
    · rw [if_pos ht] at h
      rw [if_neg (by simp [ht, isBracket]), ih h]
    · rw [if_neg ht] at h
      cases h
      rfl

theorem lastBracket_of_open {p : List TT} (h : lastNonWs p = some .StartTagOpen) : lastBracket p = some .StartTagOpen := by
  have := lastBracket_of_open' p.reverse
  rw [List.reverse_reverse] at this
  exact this h

/-- White space behind a part of a start tag is one token. -/
theorem Doc.blank (h : Doc u cs void src roots ts) {p post : List Tok} {t : Tok} (hts : ts = p ++ t :: post)
    (hk : t.type = .StartTag ∨ t.type = .AttributeName ∨ t.type = .AttributeValue ∨ t.type = .DelimiterAssign) {w x : Str} (hw : Spaces w) (hne : w ≠ [])
    (hd : src.drop t.stop = w ++ x) :
    lastBracket ((p ++ [t]).map Tok.type) = some .StartTagOpen ∧
      lastNonWs ((p ++ [t]).map Tok.type) ≠ some .StartTagOpen ∧
      ∃ y post', post = y :: post' ∧ y.type = .Whitespace ∧ y.offset = t.stop ∧ t.stop + w.length ≤ y.stop := by
  have hg := h.grammar hts
  refine ⟨?_, ?_, ?_⟩
  · rw [List.map_append, List.map_singleton, lastBracket_append, if_neg (by rcases hk with hk | hk | hk | hk <;> simp [hk, isBracket])]
    rcases hk with hk | hk | hk | hk <;> rw [hk] at hg
    · exact lastBracket_of_open hg
    · exact hg
    · exact hg.2
    · exact hg.2
  · rw [List.map_append, List.map_singleton, lastNonWs_append, if_neg (by rcases hk with hk | hk | hk | hk <;> simp [hk])]
    rcases hk with hk | hk | hk | hk <;> simp [hk]
  · obtain ⟨s2, h1, hlen⟩ := tokens_run h.tokens
    rw [hts, show p ++ t :: post = (p ++ [t]) ++ post by simp] at h1
    obtain ⟨s, h2, h3⟩ := h1.split
    have hl := h2.last
    obtain ⟨s0, s1, hst, _, htok⟩ := h2.mem (t := t) (by simp)
    have hst : s.state = .WithinTag ∨ s.state = .AfterAttributeName ∨ s.state = .BeforeAttributeValue := by
      have := hst.part_state (by rw [htok] at hk; exact hk)
      rw [show s.state = t.state by rw [← hl]; rfl, htok]
      exact this
    have hpos : s.pos = t.stop := by rw [← hl]; rfl
    have hr : rest (parserCfg u cs src) s = w ++ x := rest_eq hpos hd
    have hwl := wsLen_ge (x := x) hw
    have hpw : 0 < w.length := List.length_pos_iff.2 hne
    have hp : s.pos < (parserCfg u cs src).src.length := by
      have := congrArg List.length hd
      simp at this
      show s.pos < src.length
      omega
    cases h3 with
    | nil => exact absurd hlen (by omega)
    | cons g1 g2 g3 =>
      obtain ⟨e1, e2, e3⟩ := (scan_step g1).blank hst hp (by rw [hr]; omega)
      rw [hr] at e3
      exact ⟨_, _, rfl, e1, e2.trans hpos, by show _ ≤ Sc.pos _; omega⟩

/-! ### The parts of a start tag -/

theorem TagSlot.print_empty (t : TagSlot) : t.empty.print = t.front ++ t.rest := by
  obtain ⟨name, before, gap, after, back⟩ := t
  cases after with
  | nil => simp [TagSlot.empty, TagSlot.front, TagSlot.rest, TagText.print, printAttrs]
  | cons a l =>
    simp [TagSlot.empty, TagSlot.front, TagSlot.rest, TagText.print, printAttrs, printAttrs_mid, AttrText.print]

theorem TagSlot.print_fill (t : TagSlot) (k : Str) (v : Option Str) : (t.fill k v).print = t.front ++ k ++ valueText v ++ t.rest := by
  cases v <;>
    simp [TagSlot.fill, TagSlot.front, TagSlot.rest, TagText.print, printAttrs_mid, AttrText.print, valueText]

theorem spaces_append {a b : Str} (ha : Spaces a) (hb : Spaces b) : Spaces (a ++ b) := by
  intro x hx
  rcases List.mem_append.1 hx with h | h
  · exact ha x h
  · exact hb x h

theorem TagSlot.empty_legal {t : TagSlot} (h : t.Legal) : t.empty.Legal := by
  obtain ⟨name, before, gap, after, back⟩ := t
  obtain ⟨⟨h1, h2⟩, h3, h4, h5⟩ := h
  dsimp only at *
  cases after with
  | nil => exact ⟨⟨by simpa [TagSlot.empty] using h1, by simpa [TagSlot.empty] using h2⟩, spaces_append h4 h5⟩
  | cons a l =>
    refine ⟨⟨fun b hb => ?_, by simpa [TagSlot.empty] using h2⟩, h5⟩
    simp only [TagSlot.empty, List.mem_append, List.mem_cons] at hb h1
    rcases hb with hb | rfl | hb
    · exact h1 b (.inl hb)
    · obtain ⟨k1, k2, k3⟩ := h1 a (.inr (.inl rfl))
      exact ⟨by simp [h3], spaces_append h4 k2, k3⟩
    · exact h1 b (.inr (.inr hb))

theorem TagSlot.fill_legal {t : TagSlot} (h : t.Legal) {k : Str} {v : Option Str} (hk : AttributeName k) (ha : isAscii k)
    (hn : k ∉ t.names) (hv : ∀ w, v = some w → ValueText w) : (t.fill k v).Legal := by
  obtain ⟨⟨h1, h2⟩, h3, h4, h5⟩ := h
  refine ⟨⟨fun b hb => ?_, ?_⟩, h5⟩
  · simp only [TagSlot.fill, List.mem_append, List.mem_cons] at hb h1
    rcases hb with hb | rfl | hb
    · exact h1 b (.inl hb)
    · exact ⟨h3, h4, hk, ha, hv⟩
    · exact h1 b (.inr hb)
  · simp only [TagSlot.fill, TagSlot.names, List.map_append, List.map_cons] at *
    exact (List.perm_middle.nodup_iff).2 (List.nodup_cons.2 ⟨hn, h2⟩)

theorem attrNodes_names (i : Nat) (l : List AttrText) : (attrNodes i l).map (·.1) = l.map (·.name) := by
  induction l generalizing i with
  | nil => rfl
  | cons a l ih => simp [attrNodes, ih]

theorem TagSlot.empty_names (t : TagSlot) : t.empty.attrs.map (·.name) = t.names := by
  obtain ⟨name, before, gap, after, back⟩ := t
  cases after <;> simp [TagSlot.empty, TagSlot.names]

/-- Behind white space follows something else than `=`. -/
theorem spaces_other {g w x r : Str} {c : Nat} (hg : Spaces g) (hw : Spaces w) (hc : ¬ Space c) (h61 : c ≠ 61) :
    g ++ c :: x ≠ w ++ 61 :: r := by
  induction g generalizing w with
  | nil =>
    cases w with
    | nil => simp; intro h; exact absurd h h61
    | cons b w =>
      intro h
      simp at h
      exact hc (h.1 ▸ hw b (by simp))
  | cons a g ih =>
    cases w with
    | nil =>
      intro h
      simp at h
      have := hg a (by simp)
      rw [h.1] at this
      revert this; simp [Space]
    | cons b w =>
      intro h
      simp at h
      exact ih (fun x hx => hg x (by simp [hx])) (fun x hx => hw x (by simp [hx])) h.2

theorem attrName_head {k : Str} (hk : AttributeName k) (ha : isAscii k) : ∃ b x, k = b :: x ∧ ¬ Space b ∧ b ≠ 61 := by
  obtain ⟨h1, h2⟩ := hk
  cases k with
  | nil => exact absurd rfl h1
  | cons b x =>
    have := h2 b (by simp) (ha b (by simp))
    exact ⟨b, x, rfl, by unfold Space; omega, by omega⟩

theorem rest_other {zs : List AttrText} {g y w r : Str} (h : ∀ a ∈ zs, a.Legal) (hg : Spaces g) (hw : Spaces w) :
    printAttrs zs ++ g ++ 62 :: y ≠ w ++ 61 :: r := by
  cases zs with
  | nil => exact spaces_other hg hw (by simp [Space]) (by decide)
  | cons a l =>
    obtain ⟨h1, h2, h3, h4, _⟩ := h a (by simp)
    obtain ⟨b, x, e, h5, h6⟩ := attrName_head h3 h4
    intro he
    refine spaces_other (x := x ++ (valueText a.value ++ (printAttrs l ++ g ++ 62 :: y))) h2 hw h5 h6 (r := r) ?_
    rw [← he]
    cases hv : a.value <;> simp [printAttrs, AttrText.print, valueText, e, hv]

/-- The token at the end of the name or an attribute of a start tag. -/
theorem part_tok {pre y name g : Str} {as zs : List AttrText} (hpre : EndsInContent u cs pre) (hn : LegalName name)
    (hl : (TagText.mk name (as ++ zs) g).Legal)
    (h : Doc u cs void (pre ++ (TagText.mk name (as ++ zs) g).print ++ 62 :: y) roots ts) :
    ∃ n p t post, InForest roots n ∧ n.start = pre.length ∧ n.tag = some name ∧
      n.attributes.map (·.1) = (as ++ zs).map (·.name) ∧ ts = p ++ t :: post ∧
      (t.type = .StartTag ∨ t.type = .AttributeName ∨ t.type = .AttributeValue ∨ t.type = .DelimiterAssign) ∧
      t.stop = pre.length + 1 + name.length + (printAttrs as).length ∧ t.stop ≤ n.startTagEnd.getD n.stop := by
  obtain ⟨n, n1, n2, n3, n4⟩ := tag_node hpre hn.1 hl (.inl hn) (.inl ⟨y, rfl⟩) h
  have hnames : n.attributes.map (·.1) = (as ++ zs).map (·.name) := by
    rw [n4]; exact attrNodes_names _ _
  have hlen := (contiguous_le h.contiguous).2
  rcases List.eq_nil_or_concat as with rfl | ⟨b, a, rfl⟩
  · obtain ⟨c, r, hc, hc2⟩ := print_sep (y := 62 :: y) hl (.inl ⟨y, rfl⟩)
    obtain ⟨p, tk, post, g1, g2, g3, g4, g5, g6⟩ := open_toks (u := u) (cs := cs) (ts := ts) (a := pre) (w := name)
      (y := printAttrs zs ++ g ++ 62 :: y) hpre
      ⟨by
        have hc : printAttrs zs ++ g ++ 62 :: y = c :: r := hc
        rw [hc]; rintro _ ⟨⟩
        refine ⟨hc2.lt, ?_⟩
        rcases hc2 with (rfl | rfl | rfl | rfl | rfl) | rfl | rfl <;> simp [NameByte, alnum], .inl hn.1⟩
      (by rw [← h.tokens]; simp [TagText.print])
    obtain ⟨x, post', rfl, k1, k2, k3⟩ := g5 hn.1
    refine ⟨n, p ++ [tk], x, post', n1, n2, n3, hnames, by rw [g1]; simp, .inl k1, by rw [k3]; simp [printAttrs], ?_⟩
    have hs := (parse_done h.parse n1).name.spec
    rw [n3] at hs
    obtain ⟨w, _, _, _, _, hw⟩ := hs
    dsimp only at hw
    omega
  · simp only [List.concat_eq_append, List.append_assoc, List.singleton_append] at *
    have hm : (a.name, (⟨a.value, pre.length + 1 + name.length + (printAttrs b).length + a.gap.length⟩ : Attr)) ∈ n.attributes := by
      rw [n4]
      exact attrNodes_mem b zs a _
    have hin := (C18_attributes_from_own_start_tag u cs void _ roots n h.parse n1).1 _ _ hm
    obtain ⟨_, _, hin⟩ := hin
    cases hv : a.value with
    | none =>
      rw [hv] at hm hin
      obtain ⟨t, t1, t2, t3, t4⟩ := h.name_tok n1 hm
      obtain ⟨p, post, e⟩ := List.append_of_mem t1
      have hl := text_len (hlen t t1)
      have hp := h.nonempty t1 (.inr (.inr t2))
      rw [t4] at hl
      have hin := hin.2
      simp only at t3 hin
      have : t.stop = pre.length + 1 + name.length + (printAttrs b).length + a.gap.length + a.name.length := by omega
      refine ⟨n, p, t, post, n1, n2, n3, hnames, e, .inr (.inl t2), ?_, by omega⟩
      rw [this, printAttrs_mid]
      simp [printAttrs, AttrText.print, hv]; omega
    | some v =>
      rw [hv] at hm hin
      have hsrc : pre ++ ((TagText.mk name (b ++ a :: zs) g).print ++ 62 :: y) =
          (pre ++ b!"<" ++ name ++ printAttrs b ++ a.gap ++ a.name) ++ 61 :: (v ++ (printAttrs zs ++ g ++ 62 :: y)) := by
        simp [TagText.print, printAttrs_mid, AttrText.print, hv]
      by_cases hvne : v = []
      · subst hvne
        obtain ⟨c, r, hc1, hc2⟩ := value_sep (tag := ⟨name, b, a.gap, a.name, zs, g⟩) (v := []) (y := y) (by
          rw [show (TagHole.mk name b a.gap a.name zs g).fill [] = TagText.mk name (b ++ a :: zs) g by
            simp [TagHole.fill, ← hv]]
          exact hl)
        obtain ⟨p, k, e, t, post, g1, g2, g3, g4, g5, g6, g7, g8⟩ := h.empty_toks (h.name_tok n1 hm) (b := c) (r := r) (by
          rw [hsrc, show pre.length + 1 + name.length + (printAttrs b).length + a.gap.length + a.name.length =
            (pre ++ b!"<" ++ name ++ printAttrs b ++ a.gap ++ a.name).length by simp; omega, List.drop_left]
          exact congrArg _ hc1) hc2
        obtain ⟨w, _, _, hw, _⟩ := hin
        simp only [List.length_append] at hw
        have : (b!"=").length = 1 := rfl
        dsimp only at g7
        refine ⟨n, p ++ [k], e, t :: post, n1, n2, n3, hnames, by rw [g1]; simp, .inr (.inr (.inr g5)), ?_, by omega⟩
        rw [g7, printAttrs_mid]
        simp [printAttrs, AttrText.print, hv]; omega
      obtain ⟨p, k, e, t, post, g1, g2, g3, g4, g5, g6, g7, g8, g9, g10, g11⟩ := h.value_toks (h.has_value n1 hm hvne) (by
        rw [show pre ++ ((TagText.mk name (b ++ a :: zs) g).print ++ 62 :: y) =
          (pre ++ b!"<" ++ name ++ printAttrs b ++ a.gap ++ a.name) ++ 61 :: (v ++ (printAttrs zs ++ g ++ 62 :: y)) by
            simp [TagText.print, printAttrs_mid, AttrText.print, hv]]
        rw [show pre.length + 1 + name.length + (printAttrs b).length + a.gap.length + a.name.length =
          (pre ++ b!"<" ++ name ++ printAttrs b ++ a.gap ++ a.name).length by simp; omega]
        simp)
      obtain ⟨w, _, _, hw, _⟩ := hin
      simp only [List.length_append] at hw
      have : (b!"=").length = 1 := rfl
      refine ⟨n, p ++ [k, e], t, post, n1, n2, n3, hnames, by rw [g1]; simp, .inr (.inr (.inl g8)), ?_, by omega⟩
      rw [g10, printAttrs_mid]
      simp [printAttrs, AttrText.print, hv]; omega

variable {e : CompEnv} {d : TextDoc} {position : Pos} {o : Nat}

theorem TagSlot.empty_eq (t : TagSlot) : ∃ zs g, t.empty = ⟨t.name, t.before ++ zs, g⟩ := by
  obtain ⟨name, before, gap, after, back⟩ := t
  cases after with
  | nil => exact ⟨[], gap ++ back, by simp [TagSlot.empty]⟩
  | cons a l => exact ⟨_, back, rfl⟩

/-- The proposals at a place for an attribute. -/
theorem name_setup {pre w y : Str} {v : Option Str} {t : TagSlot} {r : List CompItem} (hpre : EndsInContent e.uni e.caseSensitive pre)
    (hn : LegalName t.name) (hl : t.Legal) (ht : d.text = pre ++ t.text w v ++ (b!">" ++ y))
    (h : parse e.uni e.caseSensitive void d.text = .ok roots) (ho : d.offsetAt position = o)
    (hc : t.Cursor (pre.length + t.front.length) o w v) (hr : doComplete e d position roots = .ok r) :
    ∃ n named data, ∃ typed : Str → Prop, ∃ assigned, InForest roots n ∧ n.tag = some t.name ∧
      (∀ l, HasAttr n l → l = w ∨ l ∈ t.names) ∧ (∀ l ∈ t.names, HasAttr n l) ∧ (∀ l, typed l → l = w ∧ w ∉ t.names) ∧
      (HasAttr n w → typed w) ∧
      (assigned ↔ v ≠ none) ∧ r = named ++ data ∧
      NameProposals e roots n o ⟨d.posAt (pre.length + t.front.length), d.posAt (pre.length + t.front.length + w.length)⟩
        typed assigned named data := by
  obtain ⟨ts, hts, _⟩ := C13_one_node_per_bracket _ _ _ _ _ h
  have D : Doc e.uni e.caseSensitive void d.text roots ts := ⟨h, hts⟩
  have hbf : ∀ a ∈ t.after, a.Legal := fun a ha => hl.1.1 a (by simp [ha])
  have noeq : ∀ {i : Nat}, d.text.drop i = t.rest ++ (b!">" ++ y) → ¬ EqualsFollows d.text i := by
    rintro i hi ⟨s, hs, x, hx⟩
    rw [hi] at hx
    refine rest_other (zs := t.after) (g := t.back) (y := y) (w := s) (r := x) hbf hl.2.2.2 hs ?_
    simpa [TagSlot.rest] using hx
  rcases hc with ⟨rfl, rfl, hc⟩ | ⟨c1, c2, c3, c4, c5, c6⟩
  · obtain ⟨zs, g, he⟩ := TagSlot.empty_eq t
    have hle := TagSlot.empty_legal hl
    have hpr := TagSlot.print_empty t
    have hnm := TagSlot.empty_names t
    rw [he] at hle hpr hnm
    have ht' : d.text = pre ++ (TagText.mk t.name (t.before ++ zs) g).print ++ 62 :: y := by
      rw [ht, hpr]; simp [TagSlot.text, valueText]
    rw [ht'] at D
    obtain ⟨n, p, tk, post, n1, n2, n3, n4, n5, n6, n7, n8⟩ := part_tok hpre hn hle D
    rw [← ht'] at D
    have hfl : pre.length + t.front.length = tk.stop + t.gap.length := by rw [n7]; simp [TagSlot.front]; omega
    have hgl : 0 < t.gap.length := List.length_pos_iff.2 hl.2.1
    obtain ⟨b1, b2, x, post', rfl, b3, b4, b5⟩ := D.blank n5 n6 (w := t.gap) (x := t.rest ++ (b!">" ++ y)) hl.2.2.1 hl.2.1 (by
      rw [ht, n7, show pre ++ t.text [] none ++ (b!">" ++ y) = (pre ++ b!"<" ++ t.name ++ printAttrs t.before) ++
        (t.gap ++ (t.rest ++ (b!">" ++ y))) by simp [TagSlot.text, TagSlot.front, valueText]]
      rw [show pre.length + 1 + t.name.length + (printAttrs t.before).length =
        (pre ++ b!"<" ++ t.name ++ printAttrs t.before).length by simp; omega, List.drop_left])
    obtain ⟨m, named, data, m1, m2, m3, m4, m5⟩ := C41_in_blanks e void d position roots (p ++ [tk]) post' x o r h
      (by rw [hts, n5]; simp) ho (by omega) (by omega) b3 b1 b2 hr
    obtain rfl : m = n := D.same_tag m1 n1 (x := tk.stop) (by omega) (by omega) (by omega) n8
    have hA : ∀ l, HasAttr m l ↔ l ∈ t.names := fun l => by unfold HasAttr; rw [n4, ← hnm]
    refine ⟨m, named, data, fun _ => False, EqualsFollows d.text o, m1, n3, fun l hl => .inr ((hA l).1 hl), fun l hl => (hA l).2 hl,
      fun _ hf => hf.elim, fun hw => ?_, ?_, m4, ?_⟩
    · have := (hA []).1 hw
      obtain ⟨a, ha, e1⟩ := List.mem_map.1 this
      exact absurd e1 (hl.1.1 a ha).2.2.1.1
    · refine ⟨fun he => absurd he (noeq ?_), fun hf => absurd rfl hf⟩
      rw [ht, hc, ← List.length_append, show pre ++ t.text [] none ++ (b!">" ++ y) = (pre ++ t.front) ++
        (t.rest ++ (b!">" ++ y)) by simp [TagSlot.text, valueText], List.drop_left]
    · rw [← hc]; exact m5
  · have hle := TagSlot.fill_legal hl c1 c2 c3 c4
    have hpr := TagSlot.print_fill t w v
    have ht' : d.text = pre ++ (t.fill w v).print ++ 62 :: y := by
      rw [ht, hpr]; simp [TagSlot.text]
    have D' := D
    rw [ht'] at D'
    obtain ⟨n, n1, n2, n3, n4⟩ := tag_node hpre hn.1 hle (.inl hn) (.inl ⟨y, rfl⟩) D'
    have hA : ∀ l, HasAttr n l ↔ l = w ∨ l ∈ t.names := fun l => by
      unfold HasAttr
      rw [n4, TagText.nodes, attrNodes_names]
      simp only [TagSlot.fill, TagSlot.names, List.map_append, List.map_cons, List.mem_append, List.mem_cons]
      constructor
      · rintro (h | h | h) <;> simp [h]
      · rintro (h | h | h) <;> simp [h]
    have hm : (w, (⟨v, pre.length + t.front.length⟩ : Attr)) ∈ n.attributes := by
      rw [n4]
      have := attrNodes_mem t.before t.after ⟨t.gap, w, v⟩ (pre.length + 1 + t.name.length)
      rw [show pre.length + t.front.length = pre.length + 1 + t.name.length + (printAttrs t.before).length + t.gap.length by
        simp [TagSlot.front]; omega]
      exact this
    obtain ⟨k, k1, k2, k3, k4⟩ := D.name_tok n1 hm
    dsimp only at k3
    obtain ⟨p, post, k5⟩ := List.append_of_mem k1
    have hlen := (contiguous_le D.contiguous).2
    have hl1 := text_len (hlen k k1)
    have hl2 := D.nonempty k1 (.inr (.inr k2))
    rw [k4] at hl1
    have hstop : k.stop = pre.length + t.front.length + w.length := by omega
    obtain ⟨m, x, named, data, m1, m2, m3, m4, m5, m6, m7, m8⟩ := C41_in_name e void d position roots p post k o r h
      (by rw [hts, k5]) ho (by omega) (by omega) k2 hr
    have hx := m8 (by rw [k4]; exact c2)
    obtain ⟨_, hin1, hin2⟩ := (C18_attributes_from_own_start_tag _ _ void _ roots n h n1).1 _ _ hm
    have hend : k.stop ≤ n.startTagEnd.getD n.stop := by
      cases v with
      | none => have := hin2.2; dsimp only at this; omega
      | some v =>
        obtain ⟨s, _, _, hs, _⟩ := hin2
        simp only [List.length_append] at hs
        omega
    obtain rfl : m = n := D.same_tag m1 n1 (x := k.stop) (by omega) (by omega) (by omega) hend
    refine ⟨m, named, data, (· = w), EqualsFollows d.text k.stop, m1, n3, fun l hl => (hA l).1 hl, fun l hl => (hA l).2 (.inr hl), ?_, ?_, ?_, m4, ?_⟩
    · rintro l rfl; exact ⟨rfl, c3⟩
    · exact fun _ => rfl
    · have hdrop : d.text.drop k.stop = valueText v ++ (t.rest ++ (b!">" ++ y)) := by
        rw [ht, hstop, show pre ++ t.text w v ++ (b!">" ++ y) = (pre ++ t.front ++ w) ++
          (valueText v ++ (t.rest ++ (b!">" ++ y))) by simp [TagSlot.text],
          show pre.length + t.front.length + w.length = (pre ++ t.front ++ w).length by simp [Nat.add_assoc], List.drop_left]
      cases v with
      | none => exact ⟨fun he => absurd he (noeq hdrop), fun hf => absurd rfl hf⟩
      | some v =>
        refine ⟨fun _ => by simp, fun _ => ⟨[], by simp [Spaces], v ++ (t.rest ++ (b!">" ++ y)), ?_⟩⟩
        rw [hdrop]; simp [valueText]
    · rw [k3, k4, hx] at m5
      rw [← hstop]
      exact m5

/-- The text that results from a proposal. -/
theorem name_edit {pre w y x : Str} {v : Option Str} {t : TagSlot} (hd : Lawful d)
    (hl : t.Legal) (ht : d.text = pre ++ t.text w v ++ (b!">" ++ y)) (hc : t.Cursor (pre.length + t.front.length) o w v) :
    applyEdits d [⟨⟨d.posAt (pre.length + t.front.length), d.posAt (pre.length + t.front.length + w.length)⟩, x⟩] =
      pre ++ t.text x v ++ (b!">" ++ y) := by
  obtain ⟨b, s, hb, hb2⟩ : ∃ b s, valueText v ++ (t.rest ++ (b!">" ++ y)) = b :: s ∧ b < 128 := by
    cases v with
    | some v => exact ⟨61, _, rfl, by decide⟩
    | none =>
      obtain ⟨b, s, h1, h2⟩ := print_sep (tag := ⟨t.name, t.after, t.back⟩) (y := b!">" ++ y) (by
        obtain ⟨⟨k1, k2⟩, k3, k4, k5⟩ := hl
        refine ⟨⟨fun a ha => k1 a (by simp; right; exact ha), ?_⟩, k5⟩
        rw [List.map_append] at k2
        exact (List.nodup_append.1 k2).2.1) (.inl ⟨y, rfl⟩)
      exact ⟨b, s, by rw [← h1]; simp [valueText, TagSlot.rest], h2.lt⟩
  have hsplit : d.text = (pre ++ t.front) ++ w ++ (valueText v ++ (t.rest ++ (b!">" ++ y))) := by
    rw [ht]; simp [TagSlot.text]
  have hb1 : isBoundary d.text ((pre ++ t.front).length + w.length) = true := by
    rw [hsplit, hb, ← List.length_append]
    exact boundary_at ⟨b, s, rfl, hb2⟩
  have hb0 : isBoundary d.text (pre ++ t.front).length = true := by
    rcases hc with ⟨rfl, _⟩ | ⟨c1, c2, _⟩
    · exact hb1
    · rw [hsplit, List.append_assoc (pre ++ t.front)]
      obtain ⟨a, x, rfl, _⟩ := attrName_head c1 c2
      exact boundary_at ⟨a, _, rfl, c2 a (by simp)⟩
  have := applyEdits_one hd (w := x) hsplit hb0 hb1
  rw [List.length_append] at this
  rw [this]; simp [TagSlot.text]

theorem accept_name {pre w y : Str} {v : Option Str} {t : TagSlot} {r : List CompItem} {a : AttributeData} (hd : Lawful d)
    (hpre : EndsInContent e.uni e.caseSensitive pre)
    (hn : LegalName t.name) (hl : t.Legal) (ht : d.text = pre ++ t.text w v ++ (b!">" ++ y))
    (h : parse e.uni e.caseSensitive void d.text = .ok roots) (ho : d.offsetAt position = o)
    (hc : t.Cursor (pre.length + t.front.length) o w v) (hr : doComplete e d position roots = .ok r)
    (ha : Offers e (some t.name) o a) (hna : a.name ∉ t.names) :
    ∃ i ∈ r, i.label = a.name ∧ ∃ te a', i.textEdit = some te ∧ Offers e (some t.name) o a' ∧ a'.name = a.name ∧
      applyEdits d [te] = pre ++ t.text (a.name ++ if v = none then addedText e a' else []) v ++ (b!">" ++ y) := by
  obtain ⟨n, named, data, typed, assigned, n1, n2, n3, n4, n5, n6, n7, rfl, P⟩ := name_setup hpre hn hl ht h ho hc hr
  have hm : a.name ∈ labels named := by
    refine (P.known a.name).2 ⟨⟨a, by rw [n2]; exact ha, rfl⟩, ?_⟩
    refine Classical.byCases (fun hA => .inl ?_) .inr
    rcases n3 _ hA with rfl' | h'
    · rw [rfl'] at hA ⊢; exact n6 hA
    · exact absurd h' hna
  obtain ⟨i, hi, hil⟩ := List.mem_map.1 hm
  obtain ⟨a', s, p1, p2, p3, p4, p5⟩ := P.text i hi
  rw [n2] at p1
  refine ⟨i, List.mem_append_left _ hi, hil, _, a', p3, p1, by rw [← p2]; exact hil, ?_⟩
  have hs : s = if v = none then addedText e a' else [] := by
    by_cases hv : v = none
    · rw [if_pos hv]
      unfold addedText
      by_cases hv' : a'.valueSet = some b!"v"
      · rw [if_pos hv']; exact p4 (.inl hv')
      · rw [if_neg hv']
        refine p5 ?_
        rintro (h1 | h1)
        · exact hv' h1
        · exact n7.1 h1 hv
    · rw [if_neg hv]
      exact p4 (.inr (n7.2 hv))
  rw [name_edit hd hl ht hc, hs, ← hil, p2]

theorem every_name {pre w y : Str} {v : Option Str} {t : TagSlot} {r : List CompItem} {i : CompItem} (hd : Lawful d)
    (hpre : EndsInContent e.uni e.caseSensitive pre)
    (hn : LegalName t.name) (hl : t.Legal) (ht : d.text = pre ++ t.text w v ++ (b!">" ++ y))
    (h : parse e.uni e.caseSensitive void d.text = .ok roots) (ho : d.offsetAt position = o)
    (hc : t.Cursor (pre.length + t.front.length) o w v) (hr : doComplete e d position roots = .ok r) (hi : i ∈ r) :
    (i.label = b!"data-" ∨ i.label ∉ t.names) ∧
      ∃ te s, i.textEdit = some te ∧ applyEdits d [te] = pre ++ t.text (i.label ++ s) v ++ (b!">" ++ y) := by
  obtain ⟨n, named, data, typed, assigned, n1, n2, n3, n4, n5, n6, n7, rfl, P⟩ := name_setup hpre hn hl ht h ho hc hr
  rcases List.mem_append.1 hi with hi | hi
  · refine ⟨.inr fun hm => ?_, ?_⟩
    · rcases ((P.known i.label).1 (List.mem_map_of_mem hi)).2 with h1 | h1
      · obtain ⟨h2, h3⟩ := n5 _ h1
        exact h3 (h2 ▸ hm)
      · exact h1 (n4 _ hm)
    · obtain ⟨a', s, p1, p2, p3, p4, p5⟩ := P.text i hi
      exact ⟨_, s, p3, by rw [name_edit hd hl ht hc, p2]⟩
  · refine ⟨?_, ?_⟩
    · rcases (P.dataKnown i.label).1 (List.mem_map_of_mem hi) with h1 | h1
      · exact .inl h1
      · exact .inr fun hm => h1.2.2.1 (n4 _ hm)
    · have := P.dataText i hi
      by_cases hdd : i.label = b!"data-"
      · rw [if_pos hdd] at this
        exact ⟨_, b!"$1=\"$2\"", this, by rw [name_edit hd hl ht hc, hdd]; rfl⟩
      · rw [if_neg hdd] at this
        exact ⟨_, _, this, name_edit hd hl ht hc⟩

end Html
