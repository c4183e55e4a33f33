import Verif.Proof.Boundary
import Verif.Proof.Query
import Verif.Spec.SelectionRange

/-! # The chain of selection ranges -/

namespace Html
open Spec

variable {void : List Str}

theorem Spec.Lawful.content {d : TextDoc} (hd : Lawful d) {a b : Nat} {r : Str}
    (ha : isBoundary d.text a = true) (hb : isBoundary d.text b = true)
    (h : d.content ⟨d.posAt a, d.posAt b⟩ = .ok r) : r = bytesIn d.text a b := by
  unfold TextDoc.content at h
  simp only at h
  rw [hd.roundTrip a (isBoundary_le ha) ha, hd.roundTrip b (isBoundary_le hb) hb] at h
  exact (sliceStr_ok h).2.2.2.2

theorem Spec.Lawful.content_ok {d : TextDoc} (hd : Lawful d) {a b : Nat} (hab : a ≤ b)
    (ha : isBoundary d.text a = true) (hb : isBoundary d.text b = true) :
    d.content ⟨d.posAt a, d.posAt b⟩ = .ok (bytesIn d.text a b) := by
  unfold TextDoc.content
  simp only
  rw [hd.roundTrip a (isBoundary_le ha) ha, hd.roundTrip b (isBoundary_le hb) hb]
  exact sliceStr_eq hab ha hb

theorem contiguous_split {pre post : List Tok} {a b : Nat} (h : Contiguous a (pre ++ post) b) :
    ∃ m, Contiguous a pre m ∧ Contiguous m post b ∧ a ≤ m := by
  induction pre generalizing a with
  | nil => exact ⟨a, rfl, h, Nat.le_refl _⟩
  | cons t ts ih =>
    obtain ⟨h1, h2, h3⟩ := h
    obtain ⟨m, i1, i2, i3⟩ := ih h3
    exact ⟨m, ⟨h1, h2, i1⟩, i2, by omega⟩

theorem contiguous_ge {ts : List Tok} {a b : Nat} (h : Contiguous a ts b) {t : Tok} (ht : t ∈ ts) :
    a ≤ t.offset := by
  obtain ⟨pre, post, rfl⟩ := List.append_of_mem ht
  obtain ⟨m, _, h2, h3⟩ := contiguous_split h
  have := h2.1
  omega

theorem key_mem {ts1 ts : List Tok} {a : Nat} (h : ts1.map (Tok.key a) = ts.map (Tok.key 0)) {t : Tok}
    (ht : t ∈ ts1) : ∃ t' ∈ ts, t'.type = t.type ∧ t'.offset = t.offset + a ∧ t'.stop = t.stop + a := by
  have : Tok.key a t ∈ ts.map (Tok.key 0) := by rw [← h]; exact List.mem_map_of_mem ht
  obtain ⟨t', h1, h2⟩ := List.mem_map.1 this
  unfold Tok.key at h2
  simp at h2
  exact ⟨t', h1, h2.1, h2.2.1, h2.2.2⟩

theorem bothQuotes_bytesIn {src : Str} {a b : Nat} (hb : b ≤ src.length)
    (h : bothQuotes (bytesIn src a b) = true) :
    ∃ q, q < 128 ∧ src[a]? = some q ∧ src[b - 1]? = some q ∧ a < b := by
  have key : ∀ q, (bytesIn src a b).head? = some q → (bytesIn src a b).getLast? = some q →
      src[a]? = some q ∧ src[b - 1]? = some q ∧ a < b := by
    intro q h1 h2
    have hl := bytesIn_length (a := a) hb
    rw [List.head?_eq_getElem?, bytesIn_getElem?] at h1
    rw [List.getLast?_eq_getElem?, bytesIn_getElem?, hl] at h2
    split at h1
    · split at h2
      · rename_i hx
        have e : a + (b - a - 1) = b - 1 := by omega
        rw [e] at h2
        exact ⟨h1, h2, by omega⟩
      · cases h2
    · cases h1
  unfold bothQuotes at h
  simp only [Bool.or_eq_true, Bool.and_eq_true, beq_iff_eq] at h
  rcases h with h | h
  · exact ⟨34, by omega, key _ h.1 h.2⟩
  · exact ⟨39, by omega, key _ h.1 h.2⟩

theorem bytesIn_bytesIn {src : Str} {a b i j : Nat} (h : a + j ≤ b) :
    bytesIn (bytesIn src a b) i j = bytesIn src (a + i) (a + j) := by
  apply List.ext_getElem?
  intro k
  rw [bytesIn_getElem?, bytesIn_getElem?, bytesIn_getElem?]
  by_cases hk : i + k < j
  · rw [if_pos hk, if_pos (by omega), if_pos (by omega)]
    congr 1; omega
  · rw [if_neg hk, if_neg (by omega)]

/-- The attribute ranges grow, contain the cursor and lie inside the start tag. -/
structure AttrRanges (src : Str) (n : Node) (e cur : Nat) (l : List (Nat × Nat)) : Prop where
  nested : Nested l
  mem : ∀ r ∈ l, n.start + 1 ≤ r.1 ∧ r.1 ≤ cur ∧ cur ≤ r.2 ∧ r.2 ≤ e - 1 ∧
    isBoundary src r.1 = true ∧ isBoundary src r.2 = true
  slash : At src (e - 2) b!"/>" → ¬ SlashValue src (n.attributes.filter (fun x => x.2.offset ≤ cur)) (e - 1) → ∀ r ∈ l, r.2 ≤ e - 2

theorem StartRun.selfClose {c : Cfg} {n : Node} {e : Nat} {s0 s1 s2 : Sc} {ts : List Tok}
    (h : StartRun c n e s0 ts s1 s2) (ht : s2.tokenType = .StartTagSelfClose) : s1.pos + 2 = e := by
  have hst := scan_step h.last
  have := hst.textOK (by rw [ht]; simp)
  unfold TextOK at this
  have e1 : s2.tok.type = .StartTagSelfClose := ht
  rw [e1] at this
  simp only at this
  have e2 : s2.tok.offset = s1.pos := hst.offset_eq
  have e3 : s2.tok.stop = e := h.stop
  have h4 := congrArg List.length this
  have hne : s2.pos ≤ c.src.length := by
    refine (hst.pos_le ?_).2
    rcases Nat.lt_or_ge c.src.length s1.pos with h1 | h1
    · have := hst.eos_iff.2 (by omega)
      rw [ht] at this; cases this
    · exact h1
  have hstop := h.stop
  unfold text at h4
  rw [e2, e3] at h4
  simp at h4
  omega

/-- How the ranges of the attributes are found: the tokens `ts1` of the start tag, scanned in the text of the
element, are the ones the parser has seen. -/
structure AttrScan (c : Cfg) (n : Node) (e cur : Nat) (l : List (Nat × Nat)) (x : Str) (ts ts1 ts2 : List Tok) (cl : Tok)
    (s0 s1 s2 : Sc) (a : AttrSel) : Prop where
  text : x = bytesIn c.src n.start n.stop
  run : StartRun c n e s0 ts s1 s2
  key : ts1.map (Tok.key n.start) = ts.map (Tok.key 0)
  bracket : isBracket cl.type = true
  offset : cl.offset + n.start = s1.pos
  stop : cl.stop + n.start = e
  le : n.start ≤ cur
  stop_le : n.stop ≤ c.src.length
  ste_le : e ≤ n.stop
  seq : AttrSeq 1 false (ts1 ++ cl :: ts2)
  contig : ∃ m z, Contiguous 1 ts1 m ∧ Contiguous m (cl :: ts2) z
  toks : ∀ t ∈ ts1, 1 ≤ t.offset ∧ t.stop ≤ cl.offset ∧
    TokBd (fun y => isBoundary c.src (y + n.start) = true) x t
  fold : (ts1 ++ cl :: ts2).foldlM (attrSelStep x (cur - n.start)) ⟨[], false, 0⟩ = .ok a
  result : l = a.result.map (fun p => (p.1 + n.start, p.2 + n.start))

theorem attributeRanges_scan {u : Uni} {cs : Bool} {d : TextDoc} {roots : List Node} {n : Node}
    {cps : List Nat} {e cur : Nat} {l : List (Nat × Nat)} (hd : Lawful d) (hu : Utf8 cps d.text)
    (h : parse u cs void d.text = .ok roots) (hn : InForest roots n) (he : n.startTagEnd = some e)
    (ha : attributeRanges u cs d n cur = .ok l) :
    ∃ x ts ts1 ts2 cl s0 s1 s2 a, AttrScan (parserCfg u cs d.text) n e cur l x ts ts1 ts2 cl s0 s1 s2 a := by
  have hnx := asciiNext_of_utf8 hu
  have hdone := parse_done h hn
  have hgt : d.text[e - 1]? = some 62 := at_get0 (hdone.ste e he).2.1
  have hes : e ≤ n.stop := by
    have h1 := (hdone.ste e he).2.2
    have := h1.1.le
    omega
  unfold attributeRanges at ha
  obtain ⟨x, hx, ha⟩ := bind_ok ha
  have hx := hd.content (hdone.start_bd hnx).1 (parse_stop_bd hnx h hn) hx
  obtain ⟨rel, hrel, ha⟩ := bind_ok ha
  obtain ⟨hle, rfl⟩ := subU_ok hrel
  obtain ⟨a, hl, ha⟩ := bind_ok ha
  cases ha
  obtain ⟨ts', ht, hf⟩ := attrSelLoop_ok.1 hl
  obtain ⟨s0, ts, s1, s2, hs⟩ := parse_start h hn he
  obtain ⟨o, ts1, cl, ts2, rfl, ho, ho1, ho2, hk, hcl, hcl1, hcl2⟩ :=
    hs.part (c' := ⟨u, x, false, cs⟩) (b := n.stop) hu rfl rfl hx hes hgt ht
  obtain ⟨z, z3, hr, hz1, hz2⟩ := tokensF_run ht
  have hseq := hr.attrSeq (lo := 1) (nm := false)
    (by constructor <;> simp [Sc.new])
  have hcon := (hr.contiguous (by simp [Sc.new])).1
  -- the first token
  rw [List.foldlM_cons] at hf
  obtain ⟨a0, hf0, hf⟩ := bind_ok hf
  rw [attrSelStep_other (by rw [ho]; simp) (by rw [ho]; simp)] at hf0
  cases hf0
  unfold AttrSeq at hseq
  rw [ho] at hseq
  simp only [reduceCtorEq, if_false, Bool.false_and] at hseq
  have hcn : isBracket cl.type = true := by
    rw [hcl]; rcases hs.type with h | h <;> rw [h] <;> simp [isBracket]
  -- positions
  have hcon1 := hcon.2.2
  rw [ho2] at hcon1
  obtain ⟨m, hc1, hc2, _⟩ := contiguous_split hcon1
  have hin : ∀ t ∈ ts1, 1 ≤ t.offset ∧ t.stop ≤ cl.offset := by
    intro t ht
    have := contiguous_ge hc1 ht
    have := hc1.mem ht
    have hm := hc2.1
    omega
  refine ⟨x, ts, ts1, ts2, cl, s0, s1, s2, a, hx, hs, hk, hcn, hcl1, hcl2, hle, hdone.le, hes, hseq,
    ⟨m, _, hc1, hc2⟩, fun t ht => ⟨(hin t ht).1, (hin t ht).2, ?_⟩, hf, rfl⟩
  obtain ⟨t', h1, h2, h3, h4⟩ := key_mem hk ht
  obtain ⟨z0, z1, hst, hne, rfl⟩ := hs.inner.run.mem h1
  have e1 : z1.tok.type = z1.tokenType := rfl
  have e2 : z1.tok.offset = z0.pos := hst.offset_eq
  have e3 : z1.tok.stop = z1.pos := rfl
  refine ⟨fun hty => ?_, fun hty hq hlt => ?_⟩
  · have := hst.attrBd (c := parserCfg u cs d.text) hnx (by rw [← e1, h2]; exact hty)
    rw [← h3, ← h4, e2, e3]
    exact this
  · have hi := hin t ht
    have hlt := hs.lt
    have hstop := hs.stop
    rw [hx, bytesIn_bytesIn (by omega)] at hq
    have hle2 := hdone.le
    obtain ⟨q, q1, q2, q3, q4⟩ := bothQuotes_bytesIn (by
      show n.start + t.stop ≤ d.text.length
      have : n.stop ≤ d.text.length := hdone.le
      omega) hq
    refine ⟨?_, ?_⟩
    · have := hnx _ _ q2 q1
      have e : n.start + t.offset + 1 = t.offset + 1 + n.start := by omega
      rwa [e] at this
    · have := isBoundary_ascii q3 q1
      have e : n.start + t.stop - 1 = t.stop - 1 + n.start := by omega
      rwa [e] at this

theorem key_split {ts1 pre post : List Tok} {t : Tok} {a : Nat}
    (h : ts1.map (Tok.key a) = (pre ++ t :: post).map (Tok.key 0)) :
    ∃ pre1 t1 post1, ts1 = pre1 ++ t1 :: post1 ∧ t1.type = t.type ∧ t1.offset + a = t.offset ∧ t1.stop + a = t.stop ∧
      pre1.map (Tok.key a) = pre.map (Tok.key 0) ∧ post1.map (Tok.key a) = post.map (Tok.key 0) := by
  rw [List.map_append, List.map_cons] at h
  obtain ⟨pre1, r, rfl, h1, h2⟩ := List.map_eq_append_iff.1 h
  obtain ⟨t1, post1, rfl, h3, h4⟩ := List.map_eq_cons_iff.1 h2
  unfold Tok.key at h3
  simp at h3
  exact ⟨pre1, t1, post1, rfl, h3.1, h3.2.1, h3.2.2, h1, h4⟩

/-- With the cursor before an attribute the ranges end before it. -/
theorem AttrScan.before {c : Cfg} {n : Node} {e cur : Nat} {l : List (Nat × Nat)} {x : Str} {ts ts1 ts2 : List Tok} {cl : Tok}
    {s0 s1 s2 : Sc} {a : AttrSel} (h : AttrScan c n e cur l x ts ts1 ts2 cl s0 s1 s2 a) {at' : Str × Attr}
    (hx : at' ∈ n.attributes) (hc : cur < at'.2.offset) : ∀ r ∈ l, r.2 ≤ at'.2.offset := by
  obtain ⟨pre, t, post, rfl, h1, h2, _⟩ := h.run.attrs at' hx
  obtain ⟨pre1, t1, post1, rfl, k1, k2, k3, _⟩ := key_split h.key
  have hle := h.le
  obtain ⟨m, z, hc1, _⟩ := h.contig
  obtain ⟨m1, hc2, hc3, _⟩ := contiguous_split hc1
  have hseq := h.seq
  have hf := h.fold
  rw [List.append_assoc, List.cons_append] at hseq hf
  have hg := selFold_before (Bd := fun y => isBoundary c.src (y + n.start) = true) hseq (.fresh rfl (by simp)) (k1.trans h1)
    (by omega) (fun t' ht' => by
      have hb := h.toks t' (by simp [ht'])
      refine ⟨hb.1, ?_, hb.2.2⟩
      have := hc2.mem ht'
      have := hc3.1
      omega) hf
  rw [h.result]
  intro r hr
  obtain ⟨r', hr', rfl⟩ := List.mem_map.1 hr
  have := (hg.mem r' hr').2.2.2.1
  show r'.2 + _ ≤ _
  omega

theorem AttrScan.good {c : Cfg} {n : Node} {e cur : Nat} {l : List (Nat × Nat)} {x : Str} {ts ts1 ts2 : List Tok} {cl : Tok}
    {s0 s1 s2 : Sc} {a : AttrSel} (h : AttrScan c n e cur l x ts ts1 ts2 cl s0 s1 s2 a) (hcur : cur < e) :
    AttrRanges c.src n e cur l := by
  have hcn : cl.type ≠ .AttributeName ∧ cl.type ≠ .AttributeValue := by
    have := h.bracket
    constructor <;> (intro hx; rw [hx] at this; cases this)
  have hf := h.fold
  rw [List.foldlM_append] at hf
  obtain ⟨a1, hf1, hf⟩ := bind_ok hf
  rw [List.foldlM_cons] at hf
  obtain ⟨a2, hf2, hf3⟩ := bind_ok hf
  rw [attrSelStep_other hcn.1 hcn.2] at hf2
  cases hf2
  obtain ⟨m, z, hc1, hc2⟩ := h.contig
  have hle := h.le
  have hcs := h.stop
  have hbh : ∀ t ∈ ts2, cur - n.start < t.offset := by
    intro t ht
    have := contiguous_ge hc2.2.2 ht
    omega
  obtain ⟨lo', nm', hs2, hi⟩ := selInv_fold (B := cl.offset) (ts2 := cl :: ts2)
    (Bd := fun y => isBoundary c.src (y + n.start) = true) h.seq (.fresh rfl (by simp)) h.toks hf1
  unfold AttrSeq at hs2
  simp only [hcn.1, hcn.2, if_false, h.bracket, Bool.not_true, Bool.and_false] at hs2
  have hres : a.result = a1.result := selFold_behind hs2 (by simp) hbh hf3
  have hg := hi.good
  have hlt := h.run.lt
  have hstop := h.run.stop
  have hoff := h.offset
  have hmem : ∀ r ∈ l, n.start + 1 ≤ r.1 ∧ r.1 ≤ cur ∧ cur ≤ r.2 ∧ r.2 ≤ cl.offset + n.start ∧
      isBoundary c.src r.1 = true ∧ isBoundary c.src r.2 = true := by
    rw [h.result, hres]
    intro r hr
    obtain ⟨r', hr', rfl⟩ := List.mem_map.1 hr
    obtain ⟨g1, g2, g3, g4, g5, g6⟩ := hg.mem r' hr'
    exact ⟨by show _ ≤ r'.1 + _; omega, by show r'.1 + _ ≤ _; omega, by show _ ≤ r'.2 + _; omega,
      by show r'.2 + _ ≤ _; omega, g5, g6⟩
  refine ⟨?_, fun r hr => ?_, ?_⟩
  · rw [h.result, hres]
    unfold Nested
    rw [List.pairwise_map]
    refine hg.nested.imp ?_
    intro a b h; exact ⟨Nat.add_le_add_right h.1 _, Nat.add_le_add_right h.2 _⟩
  · obtain ⟨g1, g2, g3, g4, g5⟩ := hmem r hr
    exact ⟨g1, g2, g3, by omega, g5⟩
  · intro hat hsv
    rcases h.run.slash hat with h1 | h1 | h1
    · have := h.run.selfClose h1
      intro r hr
      have := hmem r hr
      omega
    · have := selFold_nameless (by rfl) (fun t ht => ?_) hf1
      · rw [h.result, hres, this]; simp
      · obtain ⟨t', k1, k2, _⟩ := key_mem h.key ht
        rw [← k2]
        exact h.run.inner.nameless h1 t' k1
    · obtain ⟨at', hx, v, w, q1, q2, q3, q4, q5⟩ := h1
      by_cases ho : at'.2.offset ≤ cur
      · exact absurd ⟨at', List.mem_filter.2 ⟨hx, by simpa using ho⟩, v, w, q1, q2, q3, q4, q5⟩ hsv
      · intro r hr
        have := h.before hx (by omega) r hr
        simp only [List.length_append, List.length_cons] at q5
        omega

theorem attributeRanges_good {u : Uni} {cs : Bool} {d : TextDoc} {roots : List Node} {n : Node}
    {cps : List Nat} {e cur : Nat} {l : List (Nat × Nat)} (hd : Lawful d) (hu : Utf8 cps d.text)
    (h : parse u cs void d.text = .ok roots) (hn : InForest roots n) (he : n.startTagEnd = some e)
    (hcur : cur < e) (ha : attributeRanges u cs d n cur = .ok l) : AttrRanges d.text n e cur l := by
  obtain ⟨x, ts, ts1, ts2, cl, s0, s1, s2, a, hs⟩ := attributeRanges_scan hd hu h hn he ha
  exact hs.good hcur

/-! ### Parents -/

theorem Spec.Siblings.tight {lo hi : Nat} {l : List Node} {a b : Node} (h : Siblings lo l hi)
    (ha : l.head? = some a) (hb : l.getLast? = some b) : Siblings a.start l b.stop := by
  cases l with
  | nil => cases ha
  | cons n l =>
    simp at ha
    subst ha
    obtain ⟨h1, h2, h3⟩ := h
    refine ⟨Nat.le_refl _, h2, ?_⟩
    clear h1 h2
    induction l generalizing n with
    | nil => simp at hb; subst hb; exact Nat.le_refl _
    | cons m l ih =>
      refine ⟨h3.1, h3.2.1, ih _ (by simpa using hb) h3.2.2⟩

theorem nodeRanges_facts {c : Cfg} {n : Node} {e : Nat} (h : Done c void n) (he : n.startTagEnd = some e) :
    Nested (nodeRanges n) ∧ (∀ r ∈ nodeRanges n, n.start ≤ r.1 ∧ r.1 ≤ e ∧ contentEnd n ≤ r.2 ∧ r.2 ≤ n.stop) := by
  obtain ⟨h1, _, h2, h3⟩ := h.ste e he
  have h4 := h2.le
  unfold nodeRanges
  rw [he]
  cases hets : n.endTagStart with
  | none =>
    have hc : contentEnd n = n.stop := by unfold contentEnd; rw [hets]; rfl
    rw [hc] at h3 h4 ⊢
    simp [Nested]
    omega
  | some b =>
    have hc : contentEnd n = b := by unfold contentEnd; rw [hets]; rfl
    rw [hc] at h3 h4 ⊢
    dsimp only
    split
    · simp [Nested]; omega
    · simp [Nested]; omega

/-- The ranges of the parents. -/
def parentRanges (ps : List Node) : List (Nat × Nat) := (ps.reverse.map nodeRanges).flatten

theorem parentRanges_cons (p : Node) (ps : List Node) :
    parentRanges (p :: ps) = parentRanges ps ++ nodeRanges p := by
  simp [parentRanges]

theorem parentRanges_good {c : Cfg} {l ps : List Node} {n : Node} {lo hi : Nat}
    (hd : ∀ m, InForest l m → Done c void m) (hs : Siblings lo l hi) (h : Chain l ps n) :
    Nested (parentRanges ps) ∧
      (∀ r ∈ parentRanges ps, lo ≤ r.1 ∧ r.1 ≤ n.start ∧ n.stop ≤ r.2 ∧ r.2 ≤ hi) ∧
      lo ≤ n.start ∧ n.start < n.stop ∧ n.stop ≤ hi := by
  induction ps generalizing l lo hi with
  | nil =>
    refine ⟨.nil, by simp [parentRanges], hs.mem h⟩
  | cons p ps ih =>
    obtain ⟨h1, h2⟩ := h
    have hp := hd p (.root h1)
    have hps := hs.mem h1
    cases he : p.startTagEnd with
    | none =>
      have := (hp.noste he).1
      rw [this] at h2
      have := (chain_inForest h2)
      have h3 : ∀ m, ¬ InForest [] m := by
        intro m hm
        obtain ⟨d, hd, _⟩ := inForest_cases hm
        cases hd
      exact absurd this.1 (h3 _)
    | some e =>
      obtain ⟨h3, _, h4, h5⟩ := hp.ste e he
      obtain ⟨i1, i2, i3, i4, i5⟩ := ih (fun m hm => hd m (inForest_up h1 hm)) h4 h2
      obtain ⟨j1, j2⟩ := nodeRanges_facts hp he
      have h6 := h4.le
      rw [parentRanges_cons]
      refine ⟨?_, ?_, by omega, i4, by omega⟩
      · unfold Nested
        rw [List.pairwise_append]
        refine ⟨i1, j1, fun a ha b hb => ?_⟩
        have := i2 a ha
        have := j2 b hb
        omega
      · intro r hr
        rcases List.mem_append.1 hr with hr | hr
        · have := i2 r hr; omega
        · have := j2 r hr; omega

/-- A list of ranges between characters that grow and contain `[lo, hi]`. -/
structure Grow (src : Str) (lo hi : Nat) (l : List (Nat × Nat)) : Prop where
  nested : Nested l
  mem : ∀ r ∈ l, r.1 ≤ lo ∧ hi ≤ r.2 ∧ isBoundary src r.1 = true ∧ isBoundary src r.2 = true

theorem Grow.cons {src : Str} {lo hi a b : Nat} {l : List (Nat × Nat)} (h : Grow src lo hi l)
    (h1 : lo ≤ a) (h2 : b ≤ hi) (h4 : isBoundary src a = true)
    (h5 : isBoundary src b = true) : Grow src a b ((a, b) :: l) := by
  refine ⟨List.pairwise_cons.2 ⟨fun r hr => ?_, h.nested⟩, fun r hr => ?_⟩
  · have := h.mem r hr
    exact ⟨by show r.1 ≤ a; omega, by show b ≤ r.2; omega⟩
  · rcases List.mem_cons.1 hr with rfl | hr
    · exact ⟨Nat.le_refl _, Nat.le_refl _, h4, h5⟩
    · have := h.mem r hr
      exact ⟨by omega, by omega, this.2.2⟩

theorem Grow.append {src : Str} {lo hi a b : Nat} {l l' : List (Nat × Nat)} (h : Grow src lo hi l)
    (hn : Nested l') (hm : ∀ r ∈ l', lo ≤ r.1 ∧ r.1 ≤ a ∧ b ≤ r.2 ∧ r.2 ≤ hi ∧
      isBoundary src r.1 = true ∧ isBoundary src r.2 = true) (h1 : lo ≤ a) (h2 : b ≤ hi) :
    Grow src a b (l' ++ l) := by
  refine ⟨?_, fun r hr => ?_⟩
  · unfold Nested
    rw [List.pairwise_append]
    refine ⟨hn, h.nested, fun x hx y hy => ?_⟩
    have := hm x hx
    have := h.mem y hy
    omega
  · rcases List.mem_append.1 hr with hr | hr
    · have := hm r hr
      exact ⟨this.2.1, this.2.2.1, this.2.2.2.2⟩
    · have := h.mem r hr
      exact ⟨by omega, by omega, this.2.2⟩

variable {u : Uni} {cs : Bool} {src : Str} {roots : List Node}

theorem nodeRanges_bd {n : Node} (hnx : AsciiNext src) (h : parse u cs void src = .ok roots)
    (hn : InForest roots n) : ∀ r ∈ nodeRanges n, isBoundary src r.1 = true ∧ isBoundary src r.2 = true := by
  have hd := parse_done h hn
  have h1 := (hd.start_bd hnx).1
  have h2 := parse_stop_bd hnx h hn
  unfold nodeRanges
  split
  · rename_i a b ha hb
    have h3 := (hd.ste_bd hnx ha).1
    have h4 := (hd.ets_bd hnx hb).1
    split
    · simp only [List.mem_cons, List.not_mem_nil, or_false]
      rintro r (rfl | rfl)
      · exact ⟨h3, h4⟩
      · exact ⟨h1, h2⟩
    · simp only [List.mem_cons, List.not_mem_nil, or_false]
      rintro r rfl
      exact ⟨h1, h2⟩
  · simp only [List.mem_cons, List.not_mem_nil, or_false]
    rintro r rfl
    exact ⟨h1, h2⟩

theorem rootsRange_bd (hnx : AsciiNext src) (h : parse u cs void src = .ok roots) :
    ∀ r ∈ rootsRange roots, isBoundary src r.1 = true ∧ isBoundary src r.2 = true := by
  unfold rootsRange
  split
  · rename_i a b ha hb
    simp only [List.mem_cons, List.not_mem_nil, or_false]
    rintro r rfl
    exact ⟨((parse_done h (.root (List.mem_of_head? ha))).start_bd hnx).1,
      parse_stop_bd hnx h (.root (List.mem_of_getLast? hb))⟩
  · simp

theorem allParentRanges_grow {n : Node} {ps : List Node} (hnx : AsciiNext src)
    (h : parse u cs void src = .ok roots) (hc : Chain roots ps n) :
    Grow src n.start n.stop (allParentRanges ps roots) := by
  have hd : ∀ m, InForest roots m → Done (parserCfg u cs src) void m := fun m hm => parse_done h hm
  have hne : roots ≠ [] := by
    rintro rfl
    have := (chain_inForest hc).1
    obtain ⟨d, hd, _⟩ := inForest_cases this
    cases hd
  obtain ⟨a, ha⟩ : ∃ a, roots.head? = some a := by
    cases roots with
    | nil => exact absurd rfl hne
    | cons a l => exact ⟨a, rfl⟩
  have hb : roots.getLast? = some (roots.getLast hne) := List.getLast?_eq_some_getLast hne
  have hs := (parse_kids h).sib.tight ha hb
  obtain ⟨i1, i2, i3, i4, i5⟩ := parentRanges_good hd hs hc
  have hr : rootsRange roots = [(a.start, (roots.getLast hne).stop)] := by
    unfold rootsRange; rw [ha, hb]
  have hbd := rootsRange_bd hnx h
  have e : allParentRanges ps roots = parentRanges ps ++ rootsRange roots := rfl
  rw [hr] at hbd
  rw [e, hr]
  have hbd := hbd _ (List.mem_singleton.2 rfl)
  refine Grow.append (lo := a.start) (hi := (roots.getLast hne).stop) ⟨by simp [Nested], ?_⟩ i1 ?_ i3 i5
  · simp only [List.mem_cons, List.not_mem_nil, or_false]
    rintro r rfl
    exact ⟨Nat.le_refl _, Nat.le_refl _, hbd⟩
  · intro r hr
    have h1 := i2 r hr
    refine ⟨h1.1, h1.2.1, h1.2.2.1, h1.2.2.2, ?_⟩
    unfold parentRanges at hr
    obtain ⟨x, hx, hrx⟩ := List.mem_flatten.1 hr
    obtain ⟨p, hp, rfl⟩ := List.mem_map.1 hx
    exact nodeRanges_bd hnx h ((chain_inForest hc).2 p (List.mem_reverse.1 hp)) r hrx

/-! ### Equal neighbours are merged -/

/-- Equal neighbours are taken once. -/
def squeeze : List (Nat × Nat) → List (Nat × Nat)
  | [] => []
  | a :: l => if l.head? = some a then squeeze l else a :: squeeze l

theorem selStep_fold (d : TextDoc) (l : List (Nat × Nat)) :
    (l.foldr (selStep d) (none, none)).1 = l.head? ∧
    ((l.foldr (selStep d) (none, none)).2 = none ↔ l = []) ∧
    (∀ s, (l.foldr (selStep d) (none, none)).2 = some s →
        chainRanges s = (squeeze l).map (fun r => ⟨d.posAt r.1, d.posAt r.2⟩)) := by
  induction l with
  | nil => exact ⟨rfl, by simp, by simp⟩
  | cons a l ih =>
    obtain ⟨h1, h2, h3⟩ := ih
    rw [List.foldr_cons]
    unfold squeeze
    generalize hfo : l.foldr (selStep d) (none, none) = fo at h1 h2 h3 ⊢
    refine ⟨rfl, ?_, ?_⟩
    · unfold selStep
      simp only [h1]
      split
      · rename_i h
        simp only [h2]
        constructor
        · rintro rfl; cases h
        · intro h; cases h
      · simp
    · unfold selStep
      simp only [h1]
      split
      · exact h3
      · rename_i h
        intro s hs
        cases hs
        cases hc : fo.2 with
        | none =>
          have hl := h2.1 hc
          subst hl
          rfl
        | some s =>
          have := h3 s hc
          simp [SelRange.mk, chainRanges, this]

theorem mem_squeeze (l : List (Nat × Nat)) (r : Nat × Nat) : r ∈ squeeze l ↔ r ∈ l := by
  induction l with
  | nil => exact Iff.rfl
  | cons a l ih =>
    unfold squeeze
    split
    · rename_i h
      rw [ih, List.mem_cons]
      constructor
      · exact .inr
      · rintro (rfl | h')
        · exact List.mem_of_head? h
        · exact h'
    · rw [List.mem_cons, List.mem_cons, ih]

theorem squeeze_head (l : List (Nat × Nat)) : (squeeze l).head? = l.head? := by
  induction l with
  | nil => rfl
  | cons a l ih =>
    unfold squeeze
    split
    · rename_i h
      rw [ih, h]; rfl
    · rfl

theorem squeeze_nested {l : List (Nat × Nat)} (hn : Nested l) :
    (squeeze l).Pairwise (fun a b => b.1 ≤ a.1 ∧ a.2 ≤ b.2 ∧ a ≠ b) := by
  induction l with
  | nil => exact .nil
  | cons a l ih =>
    obtain ⟨hn1, hn2⟩ := List.pairwise_cons.1 hn
    unfold squeeze
    split
    · exact ih hn2
    · rename_i h
      refine List.pairwise_cons.2 ⟨fun b hb => ?_, ih hn2⟩
      have hb' := (mem_squeeze l b).1 hb
      have hab := hn1 b hb'
      refine ⟨hab.1, hab.2, ?_⟩
      rintro rfl
      cases l with
      | nil => cases hb'
      | cons x l =>
        simp only [List.head?_cons, Option.some.injEq] at h
        have hx := hn1 x (by simp)
        rcases List.mem_cons.1 hb' with e | hm
        · exact h e.symm
        · have := (List.pairwise_cons.1 hn2).1 a hm
          apply h
          exact Prod.ext (by omega) (by omega)

/-- Different ranges keep their order. -/
theorem squeeze_append {l l' : List (Nat × Nat)} (h : l.Pairwise (· ≠ ·)) (hne : l ≠ []) :
    ∃ r, squeeze (l ++ l') = l ++ r ∧ (∀ x, l'.head? = some x → some x ≠ l.getLast? → r = squeeze l') := by
  induction l with
  | nil => exact absurd rfl hne
  | cons a l ih =>
    obtain ⟨h1, h2⟩ := List.pairwise_cons.1 h
    cases l with
    | nil =>
      rw [List.cons_append, List.nil_append]
      by_cases hh : l'.head? = some a
      · cases l' with
        | nil => cases hh
        | cons b l' =>
          cases hh
          have e : squeeze (a :: a :: l') = squeeze (a :: l') := by rw [squeeze]; exact if_pos rfl
          have hd := squeeze_head (a :: l')
          rw [e]
          cases hq : squeeze (a :: l') with
          | nil => rw [hq] at hd; cases hd
          | cons y r =>
            rw [hq] at hd
            cases hd
            refine ⟨r, rfl, fun x hx hn => ?_⟩
            cases hx
            exact absurd rfl hn
      · exact ⟨squeeze l', by rw [squeeze, if_neg hh]; rfl, fun _ _ _ => rfl⟩
    | cons b l =>
      obtain ⟨r, h3, h4⟩ := ih h2 (by simp)
      refine ⟨r, ?_, fun x hx hn => h4 x hx (by simpa using hn)⟩
      rw [List.cons_append, squeeze, if_neg (by
        have := h1 b (by simp)
        simp only [List.cons_append, List.head?_cons, Option.some.injEq]
        exact fun h => this h.symm), h3]
      rfl

theorem squeeze_adjacent {l l' : List (Nat × Nat)} {a b : Nat × Nat} (h : a ≠ b) :
    ∃ r r', squeeze (l ++ a :: b :: l') = r ++ a :: b :: r' := by
  induction l with
  | nil =>
    have hd := squeeze_head (b :: l')
    cases hq : squeeze (b :: l') with
    | nil => rw [hq] at hd; cases hd
    | cons y r' =>
      rw [hq] at hd
      cases hd
      refine ⟨[], r', ?_⟩
      rw [List.nil_append, squeeze, if_neg (by simpa using fun e => h e.symm), hq]
      rfl
  | cons x l ih =>
    obtain ⟨r, r', ih⟩ := ih
    rw [List.cons_append, squeeze]
    split
    · exact ⟨r, r', ih⟩
    · exact ⟨x :: r, r', by rw [ih]; rfl⟩

/-! ### All together -/

/-- What holds for the list of ranges of a cursor. -/
structure SelGood (src : Str) (cur : Nat) (roots : List Node) (l : List (Nat × Nat)) : Prop where
  nested : (∀ n, InForest roots n → Covers n cur → OnlyStartTag n → ¬ SlashBehind src n cur) → Nested l
  bd : ∀ r ∈ l, isBoundary src r.1 = true ∧
    (isBoundary src r.2 = true ∨ ∀ r' ∈ l, r'.1 = r.1 → r' = r)
  cursor : Among roots cur → (∀ n, InForest roots n → Covers n cur → OnlyStartTag n → ¬ OnBracket src n cur) →
    ∀ r ∈ l, r.1 ≤ cur ∧ cur ≤ r.2
  empty : l = [] → roots = []

theorem Nested.append {l l' : List (Nat × Nat)} {lo hi : Nat} (h1 : Nested l') (h2 : Nested l)
    (h3 : ∀ r ∈ l, r.1 ≤ lo ∧ hi ≤ r.2) (h4 : ∀ r ∈ l', lo ≤ r.1 ∧ r.2 ≤ hi) : Nested (l' ++ l) := by
  unfold Nested
  rw [List.pairwise_append]
  refine ⟨h1, h2, fun x hx y hy => ?_⟩
  have := h3 y hy
  have := h4 x hx
  omega

theorem Grow.good {cur lo hi : Nat} {l : List (Nat × Nat)} (h : Grow src lo hi l) (h1 : lo ≤ cur)
    (h2 : cur ≤ hi) (h3 : l = [] → roots = []) : SelGood src cur roots l :=
  ⟨fun _ => h.nested, fun r hr => ⟨(h.mem r hr).2.2.1, .inl (h.mem r hr).2.2.2⟩,
    fun _ _ r hr => ⟨by have := h.mem r hr; omega, by have := h.mem r hr; omega⟩, h3⟩

theorem bytesIn_of_at {src x : Str} {i : Nat} (h : At src i x) : bytesIn src i (i + x.length) = x := by
  obtain ⟨r, h⟩ := h
  rw [bytesIn_eq_take, h, List.take_left']
  rfl

theorem at_of_bytesIn {src x : Str} {i : Nat} (h : bytesIn src i (i + x.length) = x) : At src i x := by
  rw [bytesIn_eq_take] at h
  exact ⟨(src.drop i).drop x.length, by conv => lhs; rw [← List.take_append_drop x.length (src.drop i), h]⟩

theorem closeText_iff {d : TextDoc} {e : Nat} {x : Str} (hd : Lawful d) (h2 : 2 ≤ e)
    (he : isBoundary d.text e = true) (h : d.content ⟨d.posAt (e - 2), d.posAt e⟩ = .ok x) :
    x = b!"/>" ↔ At d.text (e - 2) b!"/>" := by
  unfold TextDoc.content at h
  simp only at h
  rw [hd.roundTrip e (isBoundary_le he) he] at h
  obtain ⟨h3, h4, h5, _, h6⟩ := sliceStr_ok h
  constructor
  · rintro rfl
    have hl := congrArg List.length h6
    rw [bytesIn_length h4] at hl
    simp at hl
    have e1 : d.offsetAt (d.posAt (e - 2)) = e - 2 := by omega
    rw [e1] at h6
    refine at_of_bytesIn ?_
    have e2 : e - 2 + (b!"/>").length = e := by simp; omega
    rw [e2]; exact h6.symm
  · intro h7
    have hb := isBoundary_ascii (at_get0 h7) (by omega)
    rw [hd.roundTrip _ (isBoundary_le hb) hb] at h6
    have := bytesIn_of_at h7
    have e2 : e - 2 + (b!"/>").length = e := by simp; omega
    rw [e2] at this
    rw [h6, this]

theorem allParentRanges_ne {ps : List Node} (h : allParentRanges ps roots = []) : roots = [] := by
  unfold allParentRanges at h
  have := (List.append_eq_nil_iff.1 h).2
  unfold rootsRange at this
  split at this
  · cases this
  · rename_i hx
    cases roots with
    | nil => rfl
    | cons a l =>
      exfalso
      exact hx a ((a :: l).getLast (by simp)) rfl (List.getLast?_eq_some_getLast (by simp))

theorem roots_grow {cur : Nat} (h : parse u cs void src = .ok roots) (hnx : AsciiNext src) :
    SelGood src cur roots (allParentRanges [] roots) := by
  have e : allParentRanges [] roots = rootsRange roots := rfl
  refine ⟨?_, by rw [e]; exact fun r hr => ⟨(rootsRange_bd hnx h r hr).1, .inl (rootsRange_bd hnx h r hr).2⟩, ?_, allParentRanges_ne⟩
  · intro _; rw [e]; unfold rootsRange; split <;> simp [Nested]
  · intro ha _ r hr
    rw [e] at hr
    unfold rootsRange at hr
    split at hr
    · rename_i a b h1 h2
      simp only [List.mem_cons, List.not_mem_nil, or_false] at hr
      subst hr
      have hs := (parse_kids h).sib.tight h1 h2
      rcases ha with rfl | ⟨x, y, hx, hy, h3, h4⟩
      · cases h1
      · have h5 := hs.mem hx
        have h6 := hs.mem hy
        exact ⟨by show a.start ≤ _; omega, by show _ ≤ b.stop; omega⟩
    · cases hr

theorem voidRanges_good {d : TextDoc} {cps : List Nat} {n : Node} {ps : List Node} {e cur : Nat}
    {l : List (Nat × Nat)} (hd : Lawful d) (hu : Utf8 cps d.text)
    (h : parse u cs void d.text = .ok roots) (hc : Chain roots ps n) (hcov : Covers n cur)
    (he : n.startTagEnd = some e) (hets : n.endTagStart = none)
    (ha : voidRanges u cs d n e cur (allParentRanges ps roots) = .ok l) : SelGood d.text cur roots l := by
  have hnx := asciiNext_of_utf8 hu
  have hg := allParentRanges_grow hnx h hc
  have hin := (chain_inForest hc).1
  have hdone := parse_done h hin
  have hsb := hdone.start_bd hnx
  have hstb := parse_stop_bd hnx h hin
  have heb := hdone.ste_bd hnx he
  have hle : ∀ r ∈ allParentRanges ps roots, r.1 ≤ cur ∧ cur ≤ r.2 := by
    intro r hr
    have := hg.mem r hr
    unfold Covers at hcov
    omega
  unfold voidRanges at ha
  split at ha
  · cases ha
    unfold Covers at hcov
    exact ⟨fun _ => by simp [Nested], by simp; exact hsb.1, by simp; omega, by simp⟩
  · rename_i hst
    have hst : e = n.stop := by simpa using hst
    subst hst
    have hon : OnlyStartTag n := ⟨he, hets⟩
    obtain ⟨x0, h0, ha⟩ := bind_ok ha
    obtain ⟨h2, rfl⟩ := subU_ok h0
    obtain ⟨x, hx, ha⟩ := bind_ok ha
    have hcl := closeText_iff hd h2 heb.1 hx
    obtain ⟨attrs, hat, ha⟩ := bind_ok ha
    cases ha
    have hlt : cur < n.stop := hcov.2
    have har := attributeRanges_good hd hu h hin he hlt hat
    have hst1 := (hdone.ste n.stop he).1
    -- the inside of the tag
    have key : ∀ s : Nat, ((∀ n, InForest roots n → Covers n cur → OnlyStartTag n → ¬ SlashBehind d.text n cur) →
        ∀ r ∈ attrs, r.2 ≤ s) → s ≤ n.stop → isBoundary d.text s = true →
        ((∀ n, InForest roots n → Covers n cur → OnlyStartTag n → ¬ OnBracket d.text n cur) → cur ≤ s) →
        SelGood d.text cur roots (attrs ++ (n.start + 1, s) :: allParentRanges ps roots) := by
      intro s h1 h2 h3 h4
      have hg2 := hg.cons (a := n.start + 1) (b := s) (by omega) (by omega) hsb.2 h3
      refine ⟨fun hns => har.nested.append hg2.nested (fun r hr => ⟨(hg2.mem r hr).1, (hg2.mem r hr).2.1⟩)
        (fun r hr => ⟨(har.mem r hr).1, h1 hns r hr⟩), ?_, ?_, by simp⟩
      · intro r hr
        rcases List.mem_append.1 hr with hr | hr
        · exact ⟨(har.mem r hr).2.2.2.2.1, .inl (har.mem r hr).2.2.2.2.2⟩
        · exact ⟨(hg2.mem r hr).2.2.1, .inl (hg2.mem r hr).2.2.2⟩
      · intro _ hb r hr
        have h5 := h4 hb
        have h6 : cur ≠ n.start := fun hx => hb n hin hcov hon (.inl hx)
        have h7 := hcov.1
        rcases List.mem_append.1 hr with hr | hr
        · exact ⟨(har.mem r hr).2.1, (har.mem r hr).2.2.1⟩
        · rcases List.mem_cons.1 hr with rfl | hr
          · exact ⟨by show n.start + 1 ≤ cur; omega, h5⟩
          · exact hle r hr
    by_cases hx2 : x = b!"/>"
    · have hat2 := hcl.1 hx2
      simp only [hx2, if_true]
      refine key _ (fun hns => har.slash hat2 (fun hv => hns n hin hcov hon ⟨hat2, hv⟩)) (by omega)
        (isBoundary_ascii (at_get0 hat2) (by omega)) (fun hb => ?_)
      have : cur ≠ n.stop - 1 := fun hx => hb n hin hcov hon (.inr ⟨hat2, hx⟩)
      omega
    · simp only [hx2, if_false]
      exact key _ (fun _ r hr => (har.mem r hr).2.2.2.1) (by omega) heb.2 (fun _ => by omega)

theorem pairRanges_good {d : TextDoc} {cps : List Nat} {n : Node} {ps : List Node} {e ets cur : Nat}
    {l : List (Nat × Nat)} (hd : Lawful d) (hu : Utf8 cps d.text)
    (h : parse u cs void d.text = .ok roots) (hc : Chain roots ps n) (hcov : Covers n cur)
    (he : n.startTagEnd = some e) (hets : n.endTagStart = some ets)
    (ha : pairRanges u cs d n e ets cur (allParentRanges ps roots) = .ok l) :
    SelGood d.text cur roots l := by
  have hnx := asciiNext_of_utf8 hu
  have hg := allParentRanges_grow hnx h hc
  have hin := (chain_inForest hc).1
  have hdone := parse_done h hin
  have hsb := hdone.start_bd hnx
  have hstb := parse_stop_bd hnx h hin
  have heb := hdone.ste_bd hnx he
  have hetb := hdone.ets_bd hnx hets
  obtain ⟨hst1, _, hsib, hce⟩ := hdone.ste e he
  have hsl := hsib.le
  have hcee : contentEnd n = ets := by unfold contentEnd; rw [hets]; rfl
  rw [hcee] at hsl hce
  have hg2 := hg.cons (Nat.le_refl _) (Nat.le_refl _) hsb.1 hstb
  unfold Covers at hcov
  unfold pairRanges at ha
  simp only at ha
  split at ha
  · obtain ⟨x, hx, ha⟩ := bind_ok ha
    obtain ⟨h1, rfl⟩ := subU_ok hx
    obtain ⟨attrs, hat, ha⟩ := bind_ok ha
    cases ha
    have har := attributeRanges_good hd hu h hin he (by omega) hat
    have hg3 := hg2.cons (a := n.start + 1) (b := e - 1) (by omega) (by omega) hsb.2 heb.2
    refine Grow.good (hg3.append (a := cur) (b := cur) har.nested ?_ (by omega) (by omega))
      (Nat.le_refl _) (Nat.le_refl _) (by simp)
    exact har.mem
  · split at ha
    · cases ha
      exact Grow.good (hg2.cons (a := e) (b := ets) (by omega) (by omega) heb.1 hetb.1) (by omega) (by omega)
        (by simp)
    · split at ha
      · obtain ⟨x, hx, ha⟩ := bind_ok ha
        obtain ⟨h1, rfl⟩ := subU_ok hx
        cases ha
        refine ⟨fun _ => List.pairwise_cons.2 ⟨fun r hr => ?_, hg2.nested⟩, fun r hr => ?_, fun _ _ r hr => ?_, by simp⟩
        · have := hg2.mem r hr
          exact ⟨by show r.1 ≤ ets + 2; omega, by show n.stop - 1 ≤ r.2; omega⟩
        · rcases List.mem_cons.1 hr with rfl | hr
          · refine ⟨hetb.2, .inr fun r' hr' he' => ?_⟩
            rcases List.mem_cons.1 hr' with rfl | hr'
            · rfl
            · have := hg2.mem r' hr'
              have he' : r'.1 = ets + 2 := he'
              omega
          · exact ⟨(hg2.mem r hr).2.2.1, .inl (hg2.mem r hr).2.2.2⟩
        · rcases List.mem_cons.1 hr with rfl | hr
          · exact ⟨by show ets + 2 ≤ cur; omega, by show cur ≤ n.stop - 1; omega⟩
          · have := hg2.mem r hr
            exact ⟨by omega, by omega⟩
      · cases ha
        exact Grow.good hg2 (by omega) (by omega) (by simp)

theorem applicableRanges_good {d : TextDoc} {cps : List Nat} {p : Pos} {l : List (Nat × Nat)}
    (hd : Lawful d) (hu : Utf8 cps d.text) (h : parse u cs void d.text = .ok roots)
    (ha : applicableRanges u cs d roots p = .ok l) : SelGood d.text (d.offsetAt p) roots l := by
  have hnx := asciiNext_of_utf8 hu
  unfold applicableRanges at ha
  simp only at ha
  split at ha
  · cases ha
    exact roots_grow h hnx
  · rename_i n ps hf
    have hs := findNodeAt_spec (o := d.offsetAt p) (parse_nest h)
    rw [hf] at hs
    have hcov := hs.covers
    split at ha
    · rename_i e he hets
      exact voidRanges_good hd hu h hs.chain hcov he hets ha
    · rename_i e ets he hets
      exact pairRanges_good hd hu h hs.chain hcov he hets ha
    · cases ha
      unfold Covers at hcov
      exact Grow.good (allParentRanges_grow hnx h hs.chain) (by omega) (by omega) allParentRanges_ne

theorem posRange_ne {d : TextDoc} {l : List (Nat × Nat)} (hd : Lawful d)
    (hb : ∀ r ∈ l, isBoundary d.text r.1 = true ∧
      (isBoundary d.text r.2 = true ∨ ∀ r' ∈ l, r'.1 = r.1 → r' = r)) {a b : Nat × Nat} (ha : a ∈ l)
    (hbm : b ∈ l) (hne : a ≠ b) :
    (⟨d.posAt a.1, d.posAt a.2⟩ : Range) ≠ ⟨d.posAt b.1, d.posAt b.2⟩ := by
  intro h
  simp only [Range.mk.injEq] at h
  obtain ⟨h1, h2⟩ := h
  obtain ⟨a1, a2⟩ := hb a ha
  obtain ⟨b1, b2⟩ := hb b hbm
  have e1 : a.1 = b.1 := by
    rw [← hd.roundTrip a.1 (isBoundary_le a1) a1, ← hd.roundTrip b.1 (isBoundary_le b1) b1, h1]
  rcases a2 with a2 | a2
  · rcases b2 with b2 | b2
    · have e2 : a.2 = b.2 := by
        rw [← hd.roundTrip a.2 (isBoundary_le a2) a2, ← hd.roundTrip b.2 (isBoundary_le b2) b2, h2]
      exact hne (Prod.ext e1 e2)
    · exact hne (b2 a ha e1)
  · exact hne (a2 b hbm e1.symm).symm

theorem selectionRange_good {d : TextDoc} {cps : List Nat} {p : Pos} {s : SelRange}
    (hd : Lawful d) (hu : Utf8 cps d.text) (h : parse u cs void d.text = .ok roots)
    (hs : selectionRange u cs d roots p = .ok s) :
    ((∀ n, InForest roots n → Covers n (d.offsetAt p) → OnlyStartTag n → ¬ SlashBehind d.text n (d.offsetAt p)) →
      (chainRanges s).Pairwise StrictlyInside) ∧
    (Exact d p → Among roots (d.offsetAt p) →
      (∀ n, InForest roots n → Covers n (d.offsetAt p) → OnlyStartTag n →
        ¬ OnBracket d.text n (d.offsetAt p)) →
      ∀ r ∈ chainRanges s, InRange p r) := by
  unfold selectionRange at hs
  obtain ⟨l, hl, hs⟩ := bind_ok hs
  have hg := applicableRanges_good hd hu h hl
  obtain ⟨_, h2, h3⟩ := selStep_fold d l
  split at hs
  · cases hs
    refine ⟨fun _ => by simp [chainRanges], fun _ _ _ r hr => ?_⟩
    simp [chainRanges] at hr
    subst hr
    exact ⟨.inr ⟨rfl, Nat.le_refl _⟩, .inr ⟨rfl, Nat.le_refl _⟩⟩
  · rename_i s' hs'
    cases hs
    rw [h3 _ hs']
    refine ⟨fun hns => ?_, fun hp ham hob r hr => ?_⟩
    · rw [List.pairwise_map]
      refine List.Pairwise.imp_of_mem ?_ (squeeze_nested (hg.nested hns))
      intro a b ha hb hab
      exact ⟨hd.mono _ _ hab.1, hd.mono _ _ hab.2.1,
        posRange_ne hd hg.bd ((mem_squeeze l a).1 ha) ((mem_squeeze l b).1 hb) hab.2.2⟩
    · obtain ⟨x, hx, rfl⟩ := List.mem_map.1 hr
      have := hg.cursor ham hob x ((mem_squeeze l x).1 hx)
      unfold Exact at hp
      unfold InRange
      simp only
      rw [← hp]
      exact ⟨hd.mono _ _ this.1, hd.mono _ _ this.2⟩

/-! ### What is in the chain -/

theorem selectionRange_chain {d : TextDoc} {p : Pos} {s : SelRange} (hs : selectionRange u cs d roots p = .ok s) :
    ∃ l, applicableRanges u cs d roots p = .ok l ∧
      ((l = [] ∧ s = .top ⟨p, p⟩) ∨
        chainRanges s = (squeeze l).map (fun r => ⟨d.posAt r.1, d.posAt r.2⟩)) := by
  unfold selectionRange at hs
  obtain ⟨l, hl, hs⟩ := bind_ok hs
  obtain ⟨_, h2, h3⟩ := selStep_fold d l
  refine ⟨l, hl, ?_⟩
  split at hs
  · rename_i hn
    cases hs
    exact .inl ⟨h2.1 hn, rfl⟩
  · rename_i s' hs'
    cases hs
    exact .inr (h3 _ hs')

theorem mem_chain {d : TextDoc} {p : Pos} {s : SelRange} (hs : selectionRange u cs d roots p = .ok s) :
    ∃ l, applicableRanges u cs d roots p = .ok l ∧
      (∀ r ∈ l, (⟨d.posAt r.1, d.posAt r.2⟩ : Range) ∈ chainRanges s) ∧
      (∀ r, l.head? = some r → (chainRanges s).head? = some ⟨d.posAt r.1, d.posAt r.2⟩) := by
  obtain ⟨l, hl, ⟨rfl, rfl⟩ | hc⟩ := selectionRange_chain hs
  · exact ⟨_, hl, by simp⟩
  · refine ⟨l, hl, ?_⟩
    rw [hc]
    refine ⟨fun r hr => List.mem_map_of_mem (f := fun r : Nat × Nat => (⟨d.posAt r.1, d.posAt r.2⟩ : Range))
      ((mem_squeeze l r).2 hr), fun r hr => ?_⟩
    rw [List.head?_map, squeeze_head, hr]
    rfl

theorem range_mem_nodeRanges (n : Node) : (n.start, n.stop) ∈ nodeRanges n := by
  unfold nodeRanges
  split
  · split <;> simp
  · simp

theorem parent_mem {ps : List Node} {m : Node} (h : m ∈ ps) :
    (m.start, m.stop) ∈ allParentRanges ps roots :=
  List.mem_append_left _ (List.mem_flatten.2
    ⟨_, List.mem_map_of_mem (List.mem_reverse.2 h), range_mem_nodeRanges m⟩)

theorem voidRanges_sub {d : TextDoc} {n : Node} {e cur : Nat} {res l : List (Nat × Nat)} (he : e = n.stop)
    (h : voidRanges u cs d n e cur res = .ok l) : ∀ r ∈ res, r ∈ l := by
  unfold voidRanges at h
  rw [if_neg (by simpa using he)] at h
  obtain ⟨x0, h0, h⟩ := bind_ok h
  obtain ⟨x, hx, h⟩ := bind_ok h
  obtain ⟨attrs, hat, h⟩ := bind_ok h
  cases h
  intro r hr
  simp [hr]

theorem pairRanges_sub {d : TextDoc} {n : Node} {e ets cur : Nat} {res l : List (Nat × Nat)}
    (h : pairRanges u cs d n e ets cur res = .ok l) : ∀ r, r = (n.start, n.stop) ∨ r ∈ res → r ∈ l := by
  unfold pairRanges at h
  simp only at h
  intro r hr
  split at h
  · obtain ⟨x, hx, h⟩ := bind_ok h
    obtain ⟨attrs, hat, h⟩ := bind_ok h
    cases h
    simp only [List.mem_append, List.mem_cons]
    exact .inr (.inr hr)
  · split at h
    · cases h
      simp only [List.mem_cons]
      exact .inr hr
    · split at h
      · obtain ⟨x, hx, h⟩ := bind_ok h
        cases h
        simp only [List.mem_cons]
        exact .inr hr
      · cases h
        simp only [List.mem_cons]
        exact hr

theorem applicableRanges_elements {d : TextDoc} {p : Pos} {l : List (Nat × Nat)} {m : Node}
    (h : parse u cs void d.text = .ok roots)
    (hleft : ∀ n, InForest roots n → Covers n (d.offsetAt p) → LeftOpen n →
      ∃ k ∈ n.children, Covers k (d.offsetAt p))
    (ha : applicableRanges u cs d roots p = .ok l) (hm : InForest roots m) (hc : Covers m (d.offsetAt p))
    (hin : m.endTagStart ≠ none ∨ ∃ k ∈ m.children, Covers k (d.offsetAt p)) :
    (m.start, m.stop) ∈ l := by
  unfold applicableRanges at ha
  simp only at ha
  have hs := findNodeAt_spec (o := d.offsetAt p) (parse_nest h)
  split at ha
  · rename_i hf
    rw [hf] at hs
    exact absurd hc (hs m hm)
  · rename_i n ps hf
    rw [hf] at hs
    have hleaf := findNodeAt_leaf (parse_nest h) hf
    have hnf := (chain_inForest hs.chain).1
    have hdn := parse_done h hnf
    have hcase : m ∈ ps ∨ (m = n ∧ m.endTagStart ≠ none) := by
      rcases hs.all m hm hc with h1 | rfl
      · exact .inl h1
      · refine .inr ⟨rfl, ?_⟩
        rcases hin with h2 | ⟨k, h2, h3⟩
        · exact h2
        · exact absurd h3 (hleaf k (.root h2))
    split at ha
    · rename_i e he hets
      rcases hcase with h1 | ⟨rfl, h1⟩
      · refine voidRanges_sub ?_ ha _ (parent_mem h1)
        cases hcl : n.closed with
        | true =>
          have := (hdn.cls hcl hets).1
          rw [he] at this
          simpa using this
        | false =>
          obtain ⟨k, k1, k2⟩ := hleft n hnf hs.covers ⟨hcl, by simp [he]⟩
          exact absurd k2 (hleaf k (.root k1))
      · exact absurd hets h1
    · rename_i e ets he hets
      rcases hcase with h1 | ⟨rfl, h1⟩
      · exact pairRanges_sub ha _ (.inr (parent_mem h1))
      · exact pairRanges_sub ha _ (.inl rfl)
    · rename_i hx
      rcases hcase with h1 | ⟨rfl, h1⟩
      · cases ha
        exact parent_mem h1
      · exact absurd (hdn.noste (by assumption)).2.1 h1

theorem chain_child {l ps : List Node} {n m : Node} {o : Nat} (hd : ∀ d ∈ l, Deep NestN d)
    (h : Chain l ps n) (hc : Covers n o) (hm : m ∈ ps) : ∃ k ∈ m.children, Covers k o := by
  induction ps generalizing l with
  | nil => cases hm
  | cons p ps ih =>
    obtain ⟨h1, h2⟩ := h
    have hk := (hd _ h1).kids
    rcases List.mem_cons.1 hm with rfl | hm
    · cases ps with
      | nil => exact ⟨n, h2, hc⟩
      | cons q ps => exact ⟨q, h2.1, chain_covers hk h2 hc q (by simp)⟩
    · exact ih hk h2 hm

theorem applicableRanges_content {d : TextDoc} {p : Pos} {l : List (Nat × Nat)} {m : Node} {e ets : Nat}
    (h : parse u cs void d.text = .ok roots) (ha : applicableRanges u cs d roots p = .ok l)
    (hm : InForest roots m) (he : m.startTagEnd = some e) (hets : m.endTagStart = some ets)
    (h1 : e ≤ d.offsetAt p) (h2 : d.offsetAt p ≤ ets) (hc : Covers m (d.offsetAt p))
    (hk : ∀ k ∈ m.children, ¬ Covers k (d.offsetAt p)) : l.head? = some (e, ets) := by
  unfold applicableRanges at ha
  simp only at ha
  have hs := findNodeAt_spec (o := d.offsetAt p) (parse_nest h)
  split at ha
  · rename_i hf
    rw [hf] at hs
    exact absurd hc (hs m hm)
  · rename_i n ps hf
    rw [hf] at hs
    have hmn : m = n := by
      rcases hs.all m hm hc with h3 | h3
      · obtain ⟨k, k1, k2⟩ := chain_child (parse_nest h).deep hs.chain hs.covers h3
        exact absurd k2 (hk k k1)
      · exact h3
    subst hmn
    rw [he, hets] at ha
    simp only at ha
    unfold pairRanges at ha
    simp only at ha
    rw [if_neg (by omega), if_pos ⟨h1, h2⟩] at ha
    cases ha
    rfl

/-! ### No panics on ASCII texts -/

theorem attrSelFold_noerr {x : Str} {rel : Nat} {a : AttrSel} {ts : List Tok}
    (h : ∀ t ∈ ts, ∃ y, sliceStr x t.offset t.stop = .ok y) :
    ∃ a', ts.foldlM (attrSelStep x rel) a = .ok a' := by
  induction ts generalizing a with
  | nil => exact ⟨a, rfl⟩
  | cons t ts ih =>
    obtain ⟨y, hy⟩ := h t (by simp)
    have : ∃ a1, attrSelStep x rel a t = .ok a1 := by
      unfold attrSelStep
      rw [hy]
      simp only [bind, Except.bind]
      split
      · split <;> exact ⟨_, rfl⟩
      · split
        · split
          · exact ⟨_, rfl⟩
          · split <;> exact ⟨_, rfl⟩
        · exact ⟨_, rfl⟩
      · exact ⟨_, rfl⟩
    obtain ⟨a1, h1⟩ := this
    rw [List.foldlM_cons, h1]
    exact ih (fun t ht => h t (by simp [ht]))

theorem isAscii_bytesIn {s : Str} (h : isAscii s) (a b : Nat) : isAscii (bytesIn s a b) := by
  intro x hx
  unfold bytesIn at hx
  exact h x (List.mem_of_mem_take (List.mem_of_mem_drop hx))

theorem attributeRanges_total {d : TextDoc} {n : Node} {cur : Nat} (hd : Lawful d) (ha : isAscii d.text)
    (hc : Covers n cur) (hle : n.stop ≤ d.text.length) : ∃ l, attributeRanges u cs d n cur = .ok l := by
  have hx := hd.content_ok (a := n.start) (b := n.stop) (by unfold Covers at hc; omega)
    (isAscii_boundary ha (by unfold Covers at hc; omega)) (isAscii_boundary ha hle)
  have hxa := isAscii_bytesIn ha n.start n.stop
  have hmu := mu_le ⟨u, bytesIn d.text n.start n.stop, false, cs⟩ (.new 0 .WithinContent)
  obtain ⟨ts, ht⟩ := tokensF_clean (f := 2 * (bytesIn d.text n.start n.stop).length + 2) (clean_of_ascii hxa)
    (show BInv ⟨u, bytesIn d.text n.start n.stop, false, cs⟩ (.new 0 .WithinContent) from .inr (.inl rfl))
    (by simp only [Sc.new] at *; omega)
  obtain ⟨z, z3, hr, _⟩ := tokensF_run ht
  obtain ⟨hcon, _, hz, _⟩ := hr.contiguous (Nat.zero_le _)
  obtain ⟨a', ha'⟩ := attrSelFold_noerr (x := bytesIn d.text n.start n.stop) (rel := cur - n.start)
    (a := ⟨[], false, 0⟩) (ts := ts) (fun t ht => by
      obtain ⟨h1, h2⟩ := Spec.Contiguous.mem hcon ht
      refine ⟨_, sliceStr_eq h1 (isAscii_boundary hxa ?_) (isAscii_boundary hxa ?_)⟩
      · exact Nat.le_trans h1 (Nat.le_trans h2 hz)
      · exact Nat.le_trans h2 hz)
  have hl := attrSelLoop_ok.2 ⟨ts, ht, ha'⟩
  unfold attributeRanges
  rw [hx]
  simp only [bind, Except.bind, subU, if_pos hc.1]
  rw [hl]
  exact ⟨_, rfl⟩

theorem applicableRanges_total {d : TextDoc} {p : Pos} (hd : Lawful d) (ha : isAscii d.text)
    (h : parse u cs void d.text = .ok roots) : ∃ l, applicableRanges u cs d roots p = .ok l := by
  unfold applicableRanges
  simp only
  have hs := findNodeAt_spec (o := d.offsetAt p) (parse_nest h)
  cases hf : findNodeAt roots (d.offsetAt p) with
  | none => exact ⟨_, rfl⟩
  | some x =>
    obtain ⟨n, ps⟩ := x
    rw [hf] at hs
    have hin := (chain_inForest hs.chain).1
    have hdone := parse_done h hin
    have hle : n.stop ≤ d.text.length := hdone.le
    obtain ⟨l, hl⟩ := attributeRanges_total (u := u) (cs := cs) hd ha hs.covers hle
    have hc := hs.covers
    unfold Covers at hc
    simp only
    cases he : n.startTagEnd with
    | none => exact ⟨_, rfl⟩
    | some e =>
      have hste := hdone.ste e he
      have hgt : d.text[e - 1]? = some 62 := at_get0 hste.2.1
      have hlt : d.text[n.start]? = some 60 := hdone.opn
      have h2 : 2 ≤ e := by
        rcases Nat.lt_or_ge e 2 with h2 | h2
        · have e0 : n.start = e - 1 := by have := hste.1; omega
          rw [← e0, hlt] at hgt; cases hgt
        · exact h2
      cases hets : n.endTagStart with
      | none =>
        simp only
        unfold voidRanges
        split
        · exact ⟨_, rfl⟩
        · rename_i hst
          have hst : e = n.stop := by simpa using hst
          have hb := isAscii_boundary (i := e) ha (by omega)
          have hb2 := isAscii_boundary (i := e - 2) ha (by omega)
          rw [show subU e 2 = .ok (e - 2) from if_pos h2]
          simp only [bind, Except.bind]
          rw [hd.content_ok (by omega) hb2 hb]
          simp only [hl]
          exact ⟨_, rfl⟩
      | some ets =>
        simp only
        unfold pairRanges
        simp only [hl]
        split
        · rw [show subU e 1 = .ok (e - 1) from if_pos (by omega)]
          exact ⟨_, rfl⟩
        · split
          · exact ⟨_, rfl⟩
          · split
            · rw [show subU n.stop 1 = .ok (n.stop - 1) from if_pos (by omega)]
              exact ⟨_, rfl⟩
            · exact ⟨_, rfl⟩

theorem selectionRange_total {d : TextDoc} {p : Pos} (hd : Lawful d) (ha : isAscii d.text)
    (h : parse u cs void d.text = .ok roots) : ∃ s, selectionRange u cs d roots p = .ok s := by
  obtain ⟨l, hl⟩ := applicableRanges_total (p := p) hd ha h
  unfold selectionRange
  rw [hl]
  simp only [bind, Except.bind]
  split <;> exact ⟨_, rfl⟩

theorem mapM_ok {α β : Type} {f : α → R β} {l : List α} {r : List β} :
    l.mapM f = .ok r ↔ l.length = r.length ∧ ∀ i (h : i < l.length) (h' : i < r.length), f l[i] = .ok r[i] := by
  induction l generalizing r with
  | nil =>
    cases r with
    | nil => simp [pure, Except.pure]
    | cons b r => simp [pure, Except.pure]
  | cons a l ih =>
    rw [List.mapM_cons]
    constructor
    · intro h
      obtain ⟨b, hb, h⟩ := bind_ok h
      obtain ⟨bs, hbs, h⟩ := bind_ok h
      cases h
      obtain ⟨h1, h2⟩ := ih.1 hbs
      refine ⟨by simp [h1], fun i hi hi' => ?_⟩
      cases i with
      | zero => exact hb
      | succ i => exact h2 i (by simpa using hi) (by simpa using hi')
    · rintro ⟨h1, h2⟩
      cases r with
      | nil => simp at h1
      | cons b bs =>
        have e1 := h2 0 (by simp) (by simp)
        have e2 := ih.2 ⟨by simpa using h1, fun i hi hi' => h2 (i + 1) (by simp; omega) (by simp; omega)⟩
        simp only [List.getElem_cons_zero] at e1
        rw [e1, e2]
        rfl

end Html
