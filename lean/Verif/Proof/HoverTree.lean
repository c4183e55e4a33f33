import Verif.Proof.HoverAnswers
import Verif.Proof.LinkTree
import Verif.Props.Hover

/-! # Hovering over the parts of a start tag -/

namespace Html
open Spec Props

variable {u : Uni} {cs : Bool} {void : List Str} {src : Str} {roots : List Node} {ts : List Tok}

/-- In a start tag the element is the innermost one, and the end tag is behind. -/
theorem in_start_tag {n : Node} {o : Nat} (h : parse u cs void src = .ok roots) (hn : InForest roots n) (h1 : n.start ≤ o)
    (h2 : o < n.startTagEnd.getD n.stop) : Innermost roots n o ∧ BeforeEndTag n o := by
  have hd := parse_done h hn
  cases hs : n.startTagEnd with
  | none =>
    obtain ⟨g1, g2, _⟩ := hd.noste hs
    rw [hs] at h2
    exact ⟨⟨hn, ⟨h1, h2⟩, by simp [g1]⟩, fun a ha => by rw [g2] at ha; cases ha⟩
  | some x =>
    obtain ⟨_, _, g3, g4⟩ := hd.ste x hs
    rw [hs] at h2
    simp only [Option.getD_some] at h2
    have g5 := g3.le
    refine ⟨⟨hn, ⟨h1, by omega⟩, fun k hk hc => ?_⟩, fun a ha => ?_⟩
    · have := (g3.mem hk).1
      have := hc.1
      omega
    · have : contentEnd n = a := by unfold contentEnd; rw [ha]; rfl
      omega

theorem Run.plain {c : Cfg} {s s2 : Sc} {l : List Tok} (h : Run c s l s2)
    (hl : ∀ t ∈ l, t.offset < t.stop ∨ isBracket t.type = false) : Run c.plain s l s2 := by
  induction h with
  | nil s => exact .nil s
  | @cons s s1 s2 ts h hne hr ih =>
    rcases scan_plain h with ⟨h1, _⟩ | ⟨h1, h2, _⟩
    · exact .cons h1 hne (ih fun t ht => hl t (List.mem_cons_of_mem _ ht))
    · exfalso
      rcases hl s1.tok List.mem_cons_self with h3 | h3
      · have := (scan_step h).offset_eq
        simp only [Sc.tok] at h3
        omega
      · simp only [Sc.tok] at h3
        rcases h2 with h2 | h2 <;> rw [h2] at h3 <;> cases h3

/-- The tokens of a start tag, read by a scanner that does not close tags which are cut short. -/
theorem Doc.tag_run (h : Doc u cs void src roots ts) {n : Node} (hn : InForest roots n) :
    ∃ pre l post s2, ts = pre ++ (l ++ post) ∧ Run ⟨u, src, false, cs⟩ (.new n.start .WithinContent) l s2 ∧
      s2.pos = n.startTagEnd.getD n.stop := by
  have ht := parse_tags h.parse h.tokens hn
  have hd := parse_done h.parse hn
  have hlen : n.start ≤ src.length := Nat.le_of_lt (Nat.lt_of_lt_of_le hd.lt hd.le)
  have one : ∀ {pre t mid post}, ts = pre ++ t :: (mid ++ post) → t.type = .StartTagOpen → t.offset = n.start →
      (∀ y ∈ mid, y.offset < y.stop ∨ isBracket y.type = false) →
      ∃ s2, Run ⟨u, src, false, cs⟩ (.new n.start .WithinContent) (t :: mid) s2 ∧
        Contiguous s2.pos post src.length := by
    intro pre t mid post h1 h2 h3 h4
    have hs := (restart h.tokens h1 h2).1
    rw [h3] at hs
    obtain ⟨s3, s4, hr, hsc, heo⟩ := hs
    rw [show t :: (mid ++ post) = (t :: mid) ++ post by simp] at hr
    obtain ⟨s2, g1, g2⟩ := hr.split
    have h5 := h.nonempty (t := t) (by rw [h1]; simp) (.inl h2)
    have g3 := g1.plain (fun y hy => by
      rcases List.mem_cons.1 hy with rfl | hy
      · exact .inl h5
      · exact h4 y hy)
    have g4 := g1.contiguous hlen
    have g5 := g2.contiguous g4.2.2.1
    have g6 : src.length ≤ s3.pos := (scan_step hsc).eos_iff.1 heo
    have g7 : s3.pos ≤ src.length := g5.2.2.1
    rw [show s3.pos = src.length by omega] at g5
    exact ⟨s2, g3, g5.1⟩
  cases hs : n.startTagEnd with
  | none =>
    rcases ht.cut hs with ⟨x, ⟨pre, t, mid, post, h1, h2, h3, h4, _⟩, _, hx, he⟩ | ⟨⟨pre, t, mid, h1, h2, h3, h4⟩, he⟩
    · obtain ⟨s2, g1, g2⟩ := one h1 h2 h3 (fun y hy => .inr (h4 y hy))
      refine ⟨pre, t :: mid, x :: post, s2, by rw [h1]; simp, g1, ?_⟩
      have := g2.1
      have := g2.2.1
      simp only [Option.getD_none]; omega
    · obtain ⟨s2, g1, g2⟩ := one (pre := pre) (mid := mid) (post := []) (by rw [h1]; simp) h2 h3 (fun y hy => .inr (h4 y hy))
      refine ⟨pre, t :: mid, [], s2, by rw [h1]; simp, g1, ?_⟩
      simp only [Option.getD_none, he]; exact g2
  | some e =>
    obtain ⟨x, ⟨pre, t, mid, post, h1, h2, h3, h4, _⟩, hx, he, _⟩ := ht.full e hs
    obtain ⟨s2, g1, g2⟩ := one (pre := pre) (mid := mid ++ [x]) (post := post) (by rw [h1]; simp) h2 h3 (fun y hy => by
      rcases List.mem_append.1 hy with hy | hy
      · exact .inr (h4 y hy)
      · rw [List.mem_singleton] at hy; subst hy; exact .inl hx)
    refine ⟨pre, t :: (mid ++ [x]), post, s2, by rw [h1]; simp, g1, ?_⟩
    have g3 := (g1.contiguous hlen).1
    rw [← List.cons_append] at g3
    obtain ⟨m, _, g4, _⟩ := contiguous_split g3
    obtain ⟨_, _, g5⟩ := g4
    have : x.stop = s2.pos := g5
    simp only [Option.getD_some]; omega

/-- A run of the scanner of a hover. -/
theorem hoverRun_prefix {c : Cfg} {i : Nat} {ts : List Tok} {s2 : Sc} (he : c.emitPseudo = false) (hi : i ≤ c.src.length)
    (hr : Run c (.new i .WithinContent) ts s2) : HoverRun c i ts := by
  obtain ⟨hc, _⟩ := hr.contiguous hi
  refine ⟨⟨_, hc⟩, ?_, fun pre post x t h => hr.attr_after h, ?_, ?_⟩
  · intro t ht
    obtain ⟨s0, s1, hst, hne, rfl⟩ := hr.mem ht
    have := hst.advances he hne
    simp only [Sc.tok]
    rw [hst.offset_eq]
    exact this
  · intro pre post t h
    have := hr.grammar (hist := []) (by simp [GInv, Sc.new, lastBracket]) h
    simpa using this
  · intro t ht
    obtain ⟨s0, s1, hst, hne, rfl⟩ := hr.mem ht
    exact hst.textOK hne

theorem scanWhile_prefix {c : Cfg} {p : Tok → Bool} {s s2 : Sc} {ts : List Tok} (h : Run c s ts s2) {t : Tok}
    (hf : ts.find? (fun t => !p t) = some t) : ∀ {f : Nat}, ts.length < f →
    ∃ s', scanWhile c p f s = .ok s' ∧ s'.tok = t := by
  induction h with
  | nil s => cases hf
  | @cons s s1 s2 ts h hne hr ih =>
    intro f hl
    obtain ⟨f, rfl⟩ : ∃ k, f = k + 1 := ⟨f - 1, by simp at hl; omega⟩
    unfold scanWhile
    simp only [h, bind, Except.bind]
    cases hp : p s1.tok with
    | false =>
      refine ⟨s1, by rw [if_neg (by simp)], ?_⟩
      simpa [hp] using hf
    | true =>
      rw [if_pos ⟨hne, rfl⟩]
      simp only [List.find?_cons, hp, Bool.not_true] at hf
      exact ih hf (by simp at hl; omega)

theorem contiguous_behind {ts : List Tok} {a b o : Nat} (h : Contiguous a ts b) (h1 : a ≤ o) (h2 : o < b) : ∃ t ∈ ts, o < t.stop := by
  induction ts generalizing a with
  | nil => have : a = b := h; omega
  | cons t ts ih =>
    obtain ⟨h3, h4, h5⟩ := h
    rcases Nat.lt_or_ge o t.stop with h6 | h6
    · exact ⟨t, by simp, h6⟩
    · obtain ⟨x, h7, h8⟩ := ih h5 h6
      exact ⟨x, by simp [h7], h8⟩

variable {e : HoverEnv} {d : TextDoc}

/-- The range found by the scan, from the tokens up to a place behind the cursor. -/
theorem tokenRange_prefix {k : TT} {i o : Nat} {l : List Tok} {s2 : Sc} (hr : Run (e.cfg d) (.new i .WithinContent) l s2)
    (hi : i < d.text.length) (ho : i ≤ o) (ho2 : o < s2.pos) :
    e.tokenRange d k i o =
      .ok ((l.find? (fun t => t.type = k ∧ t.offset ≤ o ∧ o ≤ t.stop)).map
        (fun t => ⟨d.posAt t.offset, d.posAt t.stop⟩)) := by
  obtain ⟨hcont, _⟩ := hr.contiguous (Nat.le_of_lt hi)
  have hmu := hr.length_mu
  have hmu2 := mu_le (e.cfg d) (.new i .WithinContent)
  have hlen : (e.cfg d).src.length = d.text.length := rfl
  have hpos : (Sc.new i .WithinContent).pos = i := rfl
  rw [hlen, hpos] at hmu2
  obtain ⟨x, hx1, hx2⟩ := contiguous_behind hcont ho ho2
  cases hf : l.find? (fun t => !decide (t.stop < o ∨ (t.stop = o ∧ t.type ≠ k))) with
  | none =>
    exfalso
    rw [List.find?_eq_none] at hf
    have := hf x hx1
    simp at this
    omega
  | some t =>
    obtain ⟨s', h4, h5⟩ := scanWhile_prefix hr hf (f := 2 * d.text.length + 1) (by omega)
    unfold HoverEnv.tokenRange
    rw [h4]
    simp only [bind, Except.bind]
    rw [← touching_find hcont ho, hf]
    subst h5
    simp only [Option.filter]
    by_cases hc : s'.tokenType = k ∧ o ≤ s'.pos
    · have hc2 : s'.tok.type = k ∧ o ≤ s'.tok.stop := hc
      rw [if_pos hc, if_pos (decide_eq_true hc2)]
      rfl
    · rw [if_neg hc, if_neg (by rw [decide_eq_true_eq]; exact hc)]
      rfl

theorem contiguous_unique {l : List Tok} {a b c : Nat} (h1 : Contiguous a l b) (h2 : Contiguous a l c) : b = c := by
  induction l generalizing a with
  | nil => exact (show a = b from h1).symm.trans h2
  | cons t l ih => exact ih h1.2.2 h2.2.2

/-- A token of the start tag among those that the hover reads. -/
theorem in_run {ts pre l post : List Tok} {i b m : Nat} (hc : Contiguous i ts b) (hts : ts = pre ++ (l ++ post)) {a : Nat}
    (hl : Contiguous a l m) {t : Tok} (ht : t ∈ ts) (h1 : a ≤ t.offset) (h2 : t.stop ≤ m) (h3 : t.offset < t.stop) : t ∈ l := by
  rw [hts] at ht hc
  obtain ⟨x, c1, c2, _⟩ := contiguous_split hc
  obtain ⟨y, c3, c4, _⟩ := contiguous_split c2
  rcases List.mem_append.1 ht with ht | ht
  · exfalso
    have h4 := (contiguous_le c1).2 t ht
    have : x = a := by
      cases l with
      | nil =>
        have : a = m := hl
        omega
      | cons z l => rw [← c3.1, hl.1]
    omega
  · rcases List.mem_append.1 ht with ht | ht
    · exact ht
    · exfalso
      have h4 := contiguous_ge c4 ht
      cases l with
      | nil =>
        have : a = m := hl
        omega
      | cons z l =>
        have h5 : y = m := contiguous_unique c3.2.2 hl.2.2
        omega

/-- With the cursor on the name of an attribute. -/
theorem hover_attr_name {cps : List Nat} {n : Node} {tag k : Str} {a : Attr} {p : Pos} (hl : Lawful d) (hu : Utf8 cps d.text)
    (h : parse e.uni e.caseSensitive void d.text = .ok roots) (hn : InForest roots n) (ht : n.tag = some tag)
    (ha : (k, a) ∈ n.attributes) (h1 : a.offset ≤ d.offsetAt p) (h2 : d.offsetAt p ≤ a.offset + k.length)
    (h3 : d.offsetAt p < n.startTagEnd.getD n.stop) :
    doHover e d p roots =
      .ok (attrAnswer e tag k (d.offsetAt p) ⟨d.posAt a.offset, d.posAt (a.offset + k.length)⟩) := by
  obtain ⟨ts, hts, _⟩ := C13_one_node_per_bracket _ _ _ _ _ h
  have hD : Doc e.uni e.caseSensitive void d.text roots ts := ⟨h, hts⟩
  have hd := parse_done h hn
  have hlt : n.start < d.text.length := Nat.lt_of_lt_of_le hd.lt hd.le
  have hat := hd.attrs _ ha
  obtain ⟨t, t1, t2, t3, t4⟩ := hD.name_tok hn ha
  have t5 := hD.nonempty t1 (.inr (.inr t2))
  have t6 := (contiguous_le hD.contiguous).2 _ t1
  have t7 := text_len t6
  rw [t4] at t7
  have hst : t.stop = a.offset + k.length := by omega
  have hlo : n.start < a.offset := hat.2.1
  have hhi : a.offset + k.length ≤ n.startTagEnd.getD n.stop := by
    have := hat.2.2
    split at this
    · exact this.2
    · obtain ⟨w, _, _, hw, _⟩ := this
      simp only [List.length_append] at hw
      omega
  obtain ⟨hin, hb⟩ := in_start_tag h hn (o := d.offsetAt p) (by omega) h3
  obtain ⟨pre, l, post, s2, g1, g2, g3⟩ := hD.tag_run hn
  have g2 : Run (e.cfg d) (.new n.start .WithinContent) l s2 := g2
  have g4 := (g2.contiguous (Nat.le_of_lt hlt)).1
  have hmem : t ∈ l := in_run hD.contiguous g1 g4 t1 (by show n.start ≤ _; omega) (by omega) t5
  have hrun := hoverRun_prefix (c := e.cfg d) rfl (Nat.le_of_lt hlt) g2
  have hto : Touches (d.offsetAt p) t := ⟨by omega, by omega⟩
  rw [doHover_inside h hin ht hb]
  unfold HoverEnv.hoverInside
  rw [tokenRange_prefix g2 hlt (by omega) (by omega),
    hrun.find_none hmem hto (.inl t2) (.inl rfl) (by rw [t2]; decide)]
  simp only [Option.map_none, bind, Except.bind]
  rw [tokenRange_prefix g2 hlt (by omega) (by omega)]
  have hfind := hrun.find_eq hmem hto (.inl t2)
  rw [t2] at hfind
  rw [hfind]
  simp only [Option.map_some]
  obtain ⟨b1, b2⟩ : isBoundary d.text t.offset = true ∧ isBoundary d.text t.stop = true := by
    obtain ⟨s0, s1, hs, hne, rfl⟩ := g2.mem hmem
    obtain ⟨b1, b2⟩ := hs.attrBd (asciiNext_of_utf8 hu) (.inl t2)
    exact ⟨by rw [show s1.tok.offset = s0.pos from hs.offset_eq]; exact b1, b2⟩
  rw [hl.content_ok (by omega) b1 b2]
  simp only
  rw [attrHover_eq]
  have : bytesIn d.text t.offset t.stop = k := t4
  rw [this, t3, hst]

theorem lastName_filter {l : List Tok} {y : Tok} (h : LastName l y) : (l.filter (·.type = .AttributeName)).getLast? = some y := by
  obtain ⟨p, mid, rfl, h1, h2⟩ := h
  have : mid.filter (·.type = .AttributeName) = [] := by
    rw [List.filter_eq_nil_iff]
    intro a ha
    simp [h2 a ha]
  rw [List.filter_append, List.filter_cons, this]
  simp [h1]

/-- White space in front of `=` is all of it. -/
theorem spaces_equals {w w' x x' : Str} (h : Spaces w) (h' : Spaces w') (he : w ++ 61 :: x = w' ++ 61 :: x') : w = w' := by
  induction w generalizing w' with
  | nil =>
    cases w' with
    | nil => rfl
    | cons b w' =>
      simp only [List.nil_append, List.cons_append, List.cons.injEq] at he
      have := h' b (by simp)
      rw [← he.1] at this
      simp [Space] at this
  | cons c w ih =>
    cases w' with
    | nil =>
      simp only [List.nil_append, List.cons_append, List.cons.injEq] at he
      have := h c (by simp)
      rw [he.1] at this
      simp [Space] at this
    | cons b w' =>
      simp only [List.cons_append, List.cons.injEq] at he
      rw [he.1, ih (fun z hz => h z (by simp [hz])) (fun z hz => h' z (by simp [hz])) he.2]

theorem written_unique {k v v' : Str} {o i i' : Nat} (h : WrittenAt src k v o i) (h' : WrittenAt src k v' o i') : i = i' := by
  obtain ⟨w, h1, ⟨r, h2⟩, h3⟩ := h
  obtain ⟨w', h1', ⟨r', h2'⟩, h3'⟩ := h'
  rw [h2] at h2'
  have : k ++ (w ++ 61 :: (v ++ r)) = k ++ (w' ++ 61 :: (v' ++ r')) := by simpa using h2'
  rw [List.append_cancel_left_eq] at this
  rw [h3, h3', spaces_equals h1 h1' this]

/-- With the cursor on the value of an attribute. -/
theorem hover_attr_value {cps : List Nat} {n : Node} {tag k v w : Str} {x i : Nat} {p : Pos} (hl : Lawful d) (hc : Columns d)
    (hp : Exact d p) (hu : Utf8 cps d.text)
    (h : parse e.uni e.caseSensitive void d.text = .ok roots) (hn : InForest roots n) (ht : n.tag = some tag)
    (ha : (k, ⟨some v, x⟩) ∈ n.attributes) (hne : v ≠ []) (hw : WrittenAt d.text k v x i) (hv : unquoted v w)
    (h1 : i ≤ d.offsetAt p) (h2 : d.offsetAt p ≤ i + v.length)
    (h3 : d.offsetAt p < n.startTagEnd.getD n.stop) (hent : ∀ k m, ¬ EntityAt d.text (d.offsetAt p) k m) :
    doHover e d p roots = .ok (valueAnswer e tag k w ⟨d.posAt i, d.posAt (i + v.length)⟩) := by
  obtain ⟨ts, hts, _⟩ := C13_one_node_per_bracket _ _ _ _ _ h
  have hD : Doc e.uni e.caseSensitive void d.text roots ts := ⟨h, hts⟩
  have hd := parse_done h hn
  have hlt : n.start < d.text.length := Nat.lt_of_lt_of_le hd.lt hd.le
  have hat := hd.attrs _ ha
  obtain ⟨p1, t, post1, y, t1, t2, t3, t4, t5, t6⟩ := hD.has_value hn ha hne
  have t1m : t ∈ ts := by rw [t1]; simp
  have t7 := (contiguous_le hD.contiguous).2 _ t1m
  have t8 := text_len t7
  rw [t3] at t8
  have hvpos : 0 < v.length := List.length_pos_iff.2 hne
  obtain ⟨n', p', t0, mid, y', a', k1, k2, k3, k4, k5, k6, k7, k8, k9, k10, k11, k12⟩ := hD.value_node t1 t2
  have ey := lastName_unique t4 k6
  rw [← ey, t3, t5, t6] at k10
  have hi : t.offset = i := written_unique k10 hw
  have hst : t.stop = i + v.length := by omega
  have hlo : n.start < x := hat.2.1
  have hxi : x < i := by
    obtain ⟨_, _, _, hx⟩ := hw
    simp only [List.length_append] at hx
    have : (b!"=").length = 1 := rfl
    omega
  have hhi : i + v.length ≤ n.startTagEnd.getD n.stop := by
    obtain ⟨_, _, w1, j1, j2, j3, _⟩ := hat
    have : x + (k ++ w1 ++ b!"=").length = i := written_unique ⟨w1, j1, j2, rfl⟩ hw
    rw [List.length_append] at j3
    dsimp only at j3
    omega
  obtain ⟨hin, hb⟩ := in_start_tag h hn (o := d.offsetAt p) (by omega) h3
  obtain ⟨pre, l, post, s2, g1, g2, g3⟩ := hD.tag_run hn
  have g2 : Run (e.cfg d) (.new n.start .WithinContent) l s2 := g2
  have g4 := (g2.contiguous (Nat.le_of_lt hlt)).1
  have g4' : Contiguous n.start l s2.pos := g4
  have hmem : t ∈ l := in_run hD.contiguous g1 g4' t1m (by omega) (by omega) (by omega)
  have hrun := hoverRun_prefix (c := e.cfg d) rfl (Nat.le_of_lt hlt) g2
  have hto : Touches (d.offsetAt p) t := ⟨by omega, by omega⟩
  rw [doHover_inside h hin ht hb]
  unfold HoverEnv.hoverInside
  rw [tokenRange_prefix g2 hlt (by omega) (by omega),
    hrun.find_none hmem hto (.inr t2) (.inl rfl) (by rw [t2]; decide)]
  simp only [Option.map_none, bind, Except.bind]
  rw [tokenRange_prefix g2 hlt (by omega) (by omega),
    hrun.find_none hmem hto (.inr t2) (.inr rfl) (by rw [t2]; decide)]
  simp only [Option.map_none]
  rw [getEntityRange_none hc hp hent]
  simp only
  unfold HoverEnv.hoverValue
  rw [tokenRange_prefix g2 hlt (by omega) (by omega)]
  have hfind := hrun.find_eq hmem hto (.inr t2)
  rw [t2] at hfind
  rw [hfind]
  simp only [Option.map_some, bind, Except.bind]
  have hmu := g2.length_mu
  have hmu2 := mu_le (e.cfg d) (.new n.start .WithinContent)
  obtain ⟨b1, b2⟩ : isBoundary d.text t.offset = true ∧ isBoundary d.text t.stop = true := by
    obtain ⟨s0, s1, hs, hne, rfl⟩ := g2.mem hmem
    obtain ⟨b1, b2⟩ := hs.attrBd (asciiNext_of_utf8 hu) (.inr t2)
    exact ⟨by rw [show s1.tok.offset = s0.pos from hs.offset_eq]; exact b1, b2⟩
  rw [hl.content_ok (by omega) b1 b2]
  simp only
  rw [hl.roundTrip _ (isBoundary_le b1) b1]
  -- the tokens in front of the value
  obtain ⟨l1, l2, rfl⟩ := List.append_of_mem hmem
  have hp1 : p1 = pre ++ l1 := by
    have := pos_unique hD.contiguous t1 (show ts = (pre ++ l1) ++ t :: (l2 ++ post) by rw [g1]; simp) rfl (by omega) (by omega)
    exact this.1
  have hy : y ∈ ts := by
    obtain ⟨q1, q2, e1, _⟩ := t4
    rw [t1, e1]; simp
  have hy2 : y.type = .AttributeName := by obtain ⟨_, _, _, h, _⟩ := t4; exact h
  have hys : y.stop ≤ t.offset := by rw [ey]; omega
  have hy3 : y ∈ l1 := by
    have hyl : y ∈ l1 ++ t :: l2 := in_run hD.contiguous g1 g4' hy (by omega) (by omega) (hD.nonempty hy (.inr (.inr hy2)))
    have hyn := hD.nonempty hy (.inr (.inr hy2))
    rcases List.mem_append.1 hyl with hq | hq
    · exact hq
    · exfalso
      obtain ⟨m, _, c2, _⟩ := contiguous_split g4'
      rcases List.mem_cons.1 hq with rfl | hq
      · rw [t2] at hy2; cases hy2
      · have := contiguous_ge c2.2.2 hq
        omega
  have hln : LastName l1 y := by
    obtain ⟨q1, q2, e1, e2, e3⟩ := t4
    obtain ⟨r1, r2, rfl⟩ := List.append_of_mem hy3
    refine ⟨r1, r2, rfl, hy2, ?_⟩
    have := pos_unique (p1 := q1) (t1 := y) (q1 := q2 ++ t :: post1) (p2 := pre ++ r1) (t2 := y) (q2 := r2 ++ t :: post1) hD.contiguous
      (by rw [t1, e1]; simp) (by rw [t1, hp1]; simp) rfl (hD.nonempty hy (.inr (.inr hy2))) (hD.nonempty hy (.inr (.inr hy2)))
    have e4 : q2 = r2 := by simpa using this.2.2
    rw [← e4]; exact e3
  have hfil := lastName_filter hln
  cases l1 with
  | nil => cases hy3
  | cons z l1 =>
    have hz : z.type ≠ .AttributeName := by
      intro hx
      have := hrun.gram [] (l1 ++ t :: l2) z rfl
      rw [hx] at this
      revert this
      simp [MayFollow, lastBracket]
    rw [List.filter_cons_of_neg (by simpa using hz)] at hfil
    unfold HoverEnv.scanAttr
    cases g2 with
    | @cons _ s1 _ _ hs hne hr =>
      rw [show scan (e.cfg d) (.new n.start .WithinContent) = .ok s1 from hs]
      simp only [bind, Except.bind]
      obtain ⟨_, _, hcon⟩ := g4
      have hle : s1.pos ≤ t.offset := contiguous_ge hcon (t := t) (by simp)
      rw [attrBefore_run (c := e.cfg d) (asciiNext_of_utf8 hu) t2 rfl (by omega) hr hcon hne hle
        (by
          have h1 : (e.cfg d).src.length = d.text.length := rfl
          have h2 : (Sc.new n.start .WithinContent).pos = n.start := rfl
          rw [h1, h2] at hmu2
          simp only [List.length_append, List.length_cons] at hmu
          omega)]
      rw [hfil]
      simp only [Option.map_some, Option.some_or]
      rw [attrValueHover_eq]
      have e5 : bytesIn d.text t.offset t.stop = v := t3
      have e6 : text (e.cfg d).src y = k := t6
      rw [e5, e6, trimQuotes_eq hv, hi, hst]

/-- In a start tag, hovering never panics. -/
theorem hover_tag_total {cps : List Nat} {n : Node} {p : Pos} (hl : Lawful d) (hc : Columns d) (hp : Exact d p) (hu : Utf8 cps d.text)
    (h : parse e.uni e.caseSensitive void d.text = .ok roots) (hn : InForest roots n)
    (h1 : n.start ≤ d.offsetAt p) (h2 : d.offsetAt p < n.startTagEnd.getD n.stop) : ∃ a, doHover e d p roots = .ok a := by
  obtain ⟨ts, hts, _⟩ := C13_one_node_per_bracket _ _ _ _ _ h
  have hD : Doc e.uni e.caseSensitive void d.text roots ts := ⟨h, hts⟩
  have hd := parse_done h hn
  have hlt : n.start < d.text.length := Nat.lt_of_lt_of_le hd.lt hd.le
  obtain ⟨hin, hb⟩ := in_start_tag h hn h1 h2
  obtain ⟨pre, l, post, s2, g1, g2, g3⟩ := hD.tag_run hn
  have g2 : Run (e.cfg d) (.new n.start .WithinContent) l s2 := g2
  have g4 := (g2.contiguous (Nat.le_of_lt hlt)).1
  have hrun := hoverRun_prefix (c := e.cfg d) rfl (Nat.le_of_lt hlt) g2
  have htr : ∀ k, e.tokenRange d k n.start (d.offsetAt p) = _ := fun k => tokenRange_prefix g2 hlt h1 (by omega)
  have hcon : ∀ {t : Tok} {k : TT}, k = .AttributeName ∨ k = .AttributeValue →
      l.find? (fun t => t.type = k ∧ t.offset ≤ d.offsetAt p ∧ d.offsetAt p ≤ t.stop) = some t →
      t ∈ l ∧ t.type = k ∧ t.offset < t.stop ∧ isBoundary d.text t.offset = true ∧ isBoundary d.text t.stop = true := by
    intro t k hk ht
    have hm := List.mem_of_find?_eq_some ht
    have ht := List.find?_some ht
    simp only [decide_eq_true_eq] at ht
    have := g2.attrBd (asciiNext_of_utf8 hu) hm (by rw [ht.1]; exact hk)
    exact ⟨hm, ht.1, hrun.adv _ hm, this.1, this.2⟩
  cases ht : n.tag with
  | none =>
    obtain ⟨ps, hf⟩ := findNodeAt_of_covers h hn hin.covers hin.inner
    unfold doHover
    simp only [hf, ht]
    exact ⟨_, rfl⟩
  | some tag =>
    rw [doHover_inside h hin ht hb]
    unfold HoverEnv.hoverInside
    rw [htr]
    simp only [bind, Except.bind]
    cases l.find? (fun t => decide (t.type = TT.StartTag ∧ t.offset ≤ d.offsetAt p ∧ d.offsetAt p ≤ t.stop)) with
    | some t => exact ⟨_, rfl⟩
    | none =>
      simp only [Option.map_none]
      rw [htr]
      cases hf : l.find? (fun t => decide (t.type = TT.AttributeName ∧ t.offset ≤ d.offsetAt p ∧ d.offsetAt p ≤ t.stop)) with
      | some t =>
        obtain ⟨_, _, c1, c2, c3⟩ := hcon (.inl rfl) hf
        simp only [Option.map_some]
        rw [hl.content_ok (by omega) c2 c3]
        exact ⟨_, rfl⟩
      | none =>
        simp only [Option.map_none]
        have hent : ∃ g, getEntityRange d p (d.offsetAt p) = .ok g := by
          rcases Classical.em (∃ k m, EntityAt d.text (d.offsetAt p) k m) with ⟨k, m, hkm⟩ | hno
          · exact ⟨_, getEntityRange_some hc hp hkm⟩
          · exact ⟨_, getEntityRange_none hc hp (fun k m hkm => hno ⟨k, m, hkm⟩)⟩
        obtain ⟨x, hx⟩ := hent
        simp only [hx]
        cases x with
        | some g => exact entityHover_total hx
        | none =>
          simp only
          unfold HoverEnv.hoverValue
          rw [htr]
          cases hf : l.find? (fun t => decide (t.type = TT.AttributeValue ∧ t.offset ≤ d.offsetAt p ∧ d.offsetAt p ≤ t.stop)) with
          | none => exact ⟨_, rfl⟩
          | some t =>
            obtain ⟨c0, ck, c1, c2, c3⟩ := hcon (.inr rfl) hf
            simp only [Option.map_some, bind, Except.bind]
            rw [hl.content_ok (by omega) c2 c3]
            simp only
            rw [hl.roundTrip _ (isBoundary_le c2) c2]
            have hsa : ∃ z, e.scanAttr d n.start t.offset = .ok z := by
              have hmu := g2.length_mu
              have hmu2 := mu_le (e.cfg d) (.new n.start .WithinContent)
              obtain ⟨l1, l2, rfl⟩ := List.append_of_mem c0
              cases l1 with
              | nil =>
                have := hrun.gram [] l2 t rfl
                rw [ck] at this
                revert this
                simp [MayFollow, lastBracket]
              | cons z l1 =>
                unfold HoverEnv.scanAttr
                cases g2 with
                | @cons _ s1 _ _ hs hne hr =>
                  rw [show scan (e.cfg d) (.new n.start .WithinContent) = .ok s1 from hs]
                  simp only [bind, Except.bind]
                  obtain ⟨_, _, hcon⟩ := g4
                  have hle : s1.pos ≤ t.offset := contiguous_ge hcon (t := t) (by simp)
                  rw [attrBefore_run (c := e.cfg d) (asciiNext_of_utf8 hu) ck rfl (by omega) hr hcon hne hle
                    (by
                      have h1 : (e.cfg d).src.length = d.text.length := rfl
                      have h2 : (Sc.new n.start .WithinContent).pos = n.start := rfl
                      rw [h1, h2] at hmu2
                      simp only [List.length_append, List.length_cons] at hmu
                      omega)]
                  exact ⟨_, rfl⟩
            obtain ⟨z, hz⟩ := hsa
            rw [hz]
            cases z <;> exact ⟨_, rfl⟩

end Html
