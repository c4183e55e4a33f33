import Verif.Proof.CompletionClose
import Verif.Proof.Rename

/-! # The token loop of `do_complete` -/

namespace Html
open Spec Props

variable {void : List Str} {u : Uni} {cs : Bool} {src : Str} {roots : List Node} {ts : List Tok}

/-! ### The current tag and attribute -/

/-- Text of the last token of a type. -/
def lastText (k : TT) (src : Str) : List Tok → Option Str → Option Str
  | [], q => q
  | t :: l, q => lastText k src l (if t.type = k then some (text src t) else q)

theorem lastText_append {k : TT} {src : Str} (a b : List Tok) (q : Option Str) :
    lastText k src (a ++ b) q = lastText k src b (lastText k src a q) := by
  induction a generalizing q with
  | nil => rfl
  | cons t a ih => exact ih _

theorem lastText_none {k : TT} {src : Str} {a : List Tok} {q : Option Str} (h : ∀ t ∈ a, t.type ≠ k) :
    lastText k src a q = q := by
  induction a generalizing q with
  | nil => rfl
  | cons t a ih =>
    rw [lastText, if_neg (h t (by simp))]
    exact ih fun x hx => h x (by simp [hx])

theorem readTag_keep {src : Str} (l : List Tok) (r : List TagInfo × Option Str) (a b : List TagInfo)
    (hr : r.1 = a ++ b) (hb : b ≠ []) : ∃ b', (l.foldl (readTag src) r).1 = a ++ b' := by
  induction l generalizing r b with
  | nil => exact ⟨b, hr⟩
  | cons t l ih =>
    have mod : ∀ f, ∃ b', b' ≠ [] ∧ modifyLast f (a ++ b) = a ++ b' := by
      intro f
      obtain ⟨b0, x, rfl⟩ : ∃ b0 x, b = b0 ++ [x] := ⟨b.dropLast, b.getLast hb, (List.dropLast_concat_getLast hb).symm⟩
      exact ⟨b0 ++ [f x], by simp, by rw [← List.append_assoc, modifyLast_append, List.append_assoc]⟩
    have : ∃ b', b' ≠ [] ∧ (readTag src r t).1 = a ++ b' := by
      unfold readTag
      split
      · exact ⟨b ++ [⟨t.offset, none, []⟩], by simp, by simp [hr]⟩
      all_goals first
        | (simp only [hr]; exact mod _)
        | exact ⟨b, hb, hr⟩
    obtain ⟨b', h1, h2⟩ := this
    exact ih _ b' h2 h1

theorem readTag_tag {src : Str} (l : List Tok) (r : List TagInfo × Option Str) (a : List TagInfo) (i : TagInfo)
    (hr : r.1 = a ++ [i]) (hl : ∀ t ∈ l, t.type ≠ .StartTagOpen) :
    ∃ i' q, l.foldl (readTag src) r = (a ++ [i'], q) ∧ i'.start = i.start ∧ i'.tag = lastText .StartTag src l i.tag := by
  induction l generalizing r i with
  | nil => exact ⟨i, r.2, by rw [← hr]; rfl, rfl, rfl⟩
  | cons t l ih =>
    have : ∃ i', (readTag src r t).1 = a ++ [i'] ∧ i'.start = i.start ∧
        i'.tag = if t.type = .StartTag then some (text src t) else i.tag := by
      have h1 := hl t (by simp)
      unfold readTag
      split
      · contradiction
      all_goals rename_i h2
      · refine ⟨_, (congrArg _ hr).trans (modifyLast_append _ _ _), rfl, ?_⟩; simp [h2]
      · refine ⟨_, (congrArg _ hr).trans (modifyLast_append _ _ _), rfl, ?_⟩; simp [h2]
      · refine ⟨_, (congrArg _ hr).trans (modifyLast_append _ _ _), ?_, ?_⟩ <;> simp [h2, setValue] <;> split <;> rfl
      · refine ⟨_, (congrArg _ hr).trans (modifyLast_append _ _ _), ?_, ?_⟩ <;> simp [h2, setValue] <;> split <;> rfl
      · exact ⟨i, hr, rfl, by simp_all⟩
    obtain ⟨i', h1, h2, h3⟩ := this
    obtain ⟨i2, q, h4, h5, h6⟩ := ih _ i' h1 (fun x hx => hl x (by simp [hx]))
    exact ⟨i2, q, h4, h5.trans h2, by rw [h6, h3]; rfl⟩

mutual
theorem infoNode_mem : ∀ (n : Node) {i : TagInfo}, i ∈ infoNode n →
    ∃ m, (m = n ∨ InForest n.children m) ∧ m.start = i.start ∧ m.tag = i.tag
  | ⟨tag, start, stop, children, e1, e2, cl, attrs⟩, i, h => by
    rw [infoNode] at h
    rcases List.mem_cons.1 h with h | h
    · exact ⟨_, .inl rfl, by rw [h], by rw [h]⟩
    · obtain ⟨m, h1, h2⟩ := infos_mem children h
      exact ⟨m, .inr h1, h2⟩
theorem infos_mem : ∀ (l : List Node) {i : TagInfo}, i ∈ infos l → ∃ m, InForest l m ∧ m.start = i.start ∧ m.tag = i.tag
  | [], _, h => by simp [infos] at h
  | n :: ns, i, h => by
    rw [infos] at h
    rcases List.mem_append.1 h with h | h
    · obtain ⟨m, h1, h2⟩ := infoNode_mem n h
      rcases h1 with h1 | h1
      · exact ⟨m, .root (by simp [h1]), h2⟩
      · exact ⟨m, inForest_below (.root (by simp)) h1, h2⟩
    · obtain ⟨m, h1, h2⟩ := infos_mem ns h
      exact ⟨m, inForest_sub h1 (fun x hx => by simp [hx]), h2⟩
end

/-- The tag of a node is the name read behind its `<`. -/
theorem Doc.tag_eq (h : Doc u cs void src roots ts) {pre mid post : List Tok} {t0 : Tok} {n : Node}
    (hts : ts = pre ++ t0 :: (mid ++ post)) (h0 : t0.type = .StartTagOpen) (hn : InForest roots n)
    (hs : n.start = t0.offset) (hmid : ∀ t ∈ mid, t.type ≠ .StartTagOpen)
    (hpost : ∀ t q, post = t :: q → t.type = .StartTagOpen) : n.tag = lastText .StartTag src mid none := by
  obtain ⟨ts', h1, h2⟩ := C18_start_tags_exact u cs void src roots h.parse
  rw [h.tokens] at h1; cases h1
  rw [hts, List.foldl_append, List.foldl_cons] at h2
  generalize pre.foldl (readTag src) ([], none) = r0 at h2
  have h3 : (readTag src r0 t0).1 = r0.1 ++ [⟨t0.offset, none, []⟩] := by unfold readTag; rw [h0]
  rw [List.foldl_append] at h2
  obtain ⟨i', q, h4, h5, h6⟩ := readTag_tag (src := src) mid _ _ _ h3 hmid
  rw [h4] at h2
  have : i' ∈ infos roots := by
    rw [h2]
    cases post with
    | nil => simp
    | cons t post =>
      have hk := hpost t post rfl
      rw [List.foldl_cons]
      obtain ⟨b, hb⟩ := readTag_keep (src := src) post (readTag src (r0.1 ++ [i'], q) t) (r0.1 ++ [i'])
        [⟨t.offset, none, []⟩] (by unfold readTag; rw [hk]) (by simp)
      rw [hb]; simp
  obtain ⟨m, m1, m2, m3⟩ := infos_mem roots this
  have : m = n := start_unique h.parse m1 hn (by rw [m2, h5, hs])
  rw [← this, m3, h6]

/-! ### The loop -/

variable {x : CompCtx}

/-- Tokens that end in front of the cursor are passed. -/
theorem onToken_pass {tag : Option Str} {attr : Str} {s : Sc} (h1 : s.tokenOffset ≤ s.pos) (h2 : s.pos < x.offset) :
    x.onToken tag attr s = .ok none := by
  have ht : x.touches s = false := by simp [CompCtx.touches]; omega
  unfold CompCtx.onToken
  split
  all_goals first
    | (unfold CompCtx.onStartTagOpen; rw [if_neg (by omega)])
    | (unfold CompCtx.onStartTag; rw [ht]; rfl)
    | (unfold CompCtx.onAttributeName; rw [ht]; rfl)
    | (unfold CompCtx.onDelimiterAssign; rw [if_neg (by omega)])
    | (unfold CompCtx.onAttributeValue; rw [ht]; rfl)
    | (unfold CompCtx.onWhitespace; rw [if_neg (by omega)])
    | (unfold CompCtx.onStartTagClose; rw [if_neg (by omega)])
    | (unfold CompCtx.onContent; rw [if_neg (by omega)])
    | (unfold CompCtx.onEndTagOpen; rw [if_neg (by omega)])
    | (unfold CompCtx.onEndTag; rw [if_neg (by omega)])
    | rw [if_neg (by omega)]

theorem loop_step {tag : Option Str} {attr : Str} {s : Sc} {f : Nat} (hne : s.tokenType ≠ .EOS)
    (h : s.tokenOffset < x.offset) : x.loop (f + 1) tag attr s = (do
      match ← x.onToken tag attr s with
      | some r => .ok r
      | .none => do
        let tag' ← x.nextTag tag s
        let attr' ← x.nextAttr attr s
        let s1 ← scan (x.env.cfg x.doc true) s
        x.loop f tag' attr' s1) := by
  rw [CompCtx.loop, if_pos ⟨hne, h⟩]
  rfl

theorem nextTag_ok {tag q : Option Str} {s : Sc} (h : x.nextTag tag s = .ok q) :
    q = if s.tok.type = .StartTag then some (text x.doc.text s.tok) else tag := by
  unfold CompCtx.nextTag at h
  have : s.tok.type = s.tokenType := rfl
  rw [this]
  split at h
  · obtain ⟨t, h1, h⟩ := bind_ok h
    cases h
    rw [if_pos (by assumption), text_eq h1]; rfl
  · cases h; rw [if_neg (by assumption)]

theorem nextAttr_ok {attr q : Str} {s : Sc} (h : x.nextAttr attr s = .ok q) :
    q = if s.tok.type = .AttributeName then text x.doc.text s.tok else attr := by
  unfold CompCtx.nextAttr at h
  have : s.tok.type = s.tokenType := rfl
  rw [this]
  split at h
  · rw [if_pos (by assumption), text_eq h]; rfl
  · cases h; rw [if_neg (by assumption)]

theorem loop_walk {l : List Tok} : ∀ {s0 s : Sc} {tag : Option Str} {attr : Str} {f : Nat} {r : List CompItem}
    {t : Tok} {l2 : List Tok}, Stream (x.env.cfg x.doc true) s0 (l ++ t :: l2) → (∀ y ∈ l, y.stop < x.offset) →
    t.offset < x.offset → x.offset ≤ t.stop → scan (x.env.cfg x.doc true) s0 = .ok s → x.loop f tag attr s = .ok r →
    ∃ s1 q, s1.tok = t ∧ s1.tokenType ≠ .EOS ∧ Stream (x.env.cfg x.doc true) s1 l2 ∧
      x.onToken (lastText .StartTag x.doc.text l tag)
        ((lastText .AttributeName x.doc.text l (some attr)).getD []) s1 = .ok q ∧ r = q.getD [] := by
  induction l with
  | nil =>
    intro s0 s tag attr f r t l2 hst _ hlt hle hs hr
    obtain ⟨s1, h1, h2, h3, h4⟩ := hst.cons
    rw [hs] at h1; cases h1
    have ho : s.tokenOffset < x.offset := by rw [← h3] at hlt; exact hlt
    have hp : x.offset ≤ s.pos := by rw [← h3] at hle; exact hle
    cases f with
    | zero => cases hr
    | succ f =>
      rw [loop_step h2 ho] at hr
      obtain ⟨q, hq, hr⟩ := bind_ok hr
      refine ⟨s, q, h3, h2, h4, hq, ?_⟩
      cases q with
      | some r' => cases hr; rfl
      | none =>
        obtain ⟨tag', _, hr⟩ := bind_ok hr
        obtain ⟨attr', _, hr⟩ := bind_ok hr
        obtain ⟨s2, hs2, hr⟩ := bind_ok hr
        cases f with
        | zero => cases hr
        | succ f =>
          have := (scan_step hs2).offset_eq
          rw [CompCtx.loop, if_neg (by omega)] at hr
          cases hr; rfl
  | cons y l ih =>
    intro s0 s tag attr f r t l2 hst hl hlt hle hs hr
    have hge := (hst.ge (t := y) (by simp)).2
    obtain ⟨s1, h1, h2, h3, h4⟩ := hst.cons
    rw [hs] at h1; cases h1
    have hy := hl y (by simp)
    have hp : s.pos < x.offset := by rw [← h3] at hy; exact hy
    have hg : s.tokenOffset ≤ s.pos := by rw [← h3] at hge; exact hge
    cases f with
    | zero => cases hr
    | succ f =>
      rw [loop_step h2 (by omega), onToken_pass hg hp] at hr
      obtain ⟨_, hq, hr⟩ := bind_ok hr
      cases hq
      obtain ⟨tag', ht', hr⟩ := bind_ok hr
      obtain ⟨attr', ha', hr⟩ := bind_ok hr
      obtain ⟨s2, hs2, hr⟩ := bind_ok hr
      obtain ⟨s3, q, e1, e2, e3, e4, e5⟩ := ih h4 (fun z hz => hl z (by simp [hz])) hlt hle hs2 hr
      refine ⟨s3, q, e1, e2, e3, ?_, e5⟩
      rw [lastText, lastText]
      rw [nextTag_ok ht', nextAttr_ok ha', h3] at e4
      have : (if y.type = .AttributeName then some (text x.doc.text y) else some attr) =
          some (if y.type = .AttributeName then text x.doc.text y else attr) := by split <;> rfl
      rw [this]
      exact e4

variable {e : CompEnv} {d : TextDoc} {position : Pos} {o : Nat}

/-- The answer is given by the token at the cursor. -/
theorem Doc.complete_at (h : Doc e.uni e.caseSensitive void d.text roots ts) {n : Node} {ps : List Node}
    (hf : findNodeBefore roots o = some (n, ps)) {pre post : List Tok} {t : Tok} (hts : ts = pre ++ t :: post)
    (h1 : t.offset < o) (h2 : o ≤ t.stop) (ho : d.offsetAt position = o) {r : List CompItem}
    (hr : doComplete e d position roots = .ok r) :
    ∃ p l t0 l' s q, pre = p ++ l ∧ l ++ t :: post = t0 :: l' ∧ t0.type = .StartTagOpen ∧ t0.offset = n.start ∧
      s.tok = t ∧ s.tokenType ≠ .EOS ∧ Stream (e.cfg d true) s post ∧
      CompCtx.onToken ⟨e, d, position, o, n, ps, roots⟩ (lastText .StartTag d.text l none)
        ((lastText .AttributeName d.text l (some [])).getD []) s = .ok q ∧ r = q.getD [] := by
  unfold doComplete at hr
  rw [ho] at hr
  simp only [hf] at hr
  obtain ⟨s0, hs0, hr⟩ := bind_ok hr
  obtain ⟨c1, c2, _⟩ := C23_last_node_before _ _ _ _ _ _ _ _ h.parse hf
  have hn := (chain_inForest c2).1
  obtain ⟨p, t0, q0, g1, g2, g3, g4, _⟩ := h.from_node hn
  have hc := h.contiguous
  have n0 := h.nonempty (t := t0) (by rw [g1]; simp) (.inl g2)
  have hsplit : ∃ l, pre = p ++ l ∧ l ++ t :: post = t0 :: q0 := by
    have he : pre ++ t :: post = p ++ t0 :: q0 := by rw [← hts, g1]
    rcases List.append_eq_append_iff.1 he with ⟨a, h3, h4⟩ | ⟨a, h3, h4⟩
    · cases a with
      | nil => exact ⟨[], by simpa using h3.symm, by simpa using h4⟩
      | cons y a =>
        exfalso
        simp only [List.cons_append, List.cons.injEq] at h4
        obtain ⟨rfl, rfl⟩ := h4
        rw [hts] at hc
        obtain ⟨_, _, hc, _⟩ := contiguous_split hc
        obtain ⟨_, _, hc⟩ := hc
        have := contiguous_ge hc (t := t0) (by simp)
        omega
    · exact ⟨a, h3, h4.symm⟩
  obtain ⟨l, e1, e2⟩ := hsplit
  rw [← e2] at g4
  obtain ⟨s, q, r1, r2, r3, r4, r5⟩ := loop_walk (x := ⟨e, d, position, o, n, ps, roots⟩) g4 (by
      intro y hy
      rw [hts, e1, List.append_assoc] at hc
      obtain ⟨_, _, hc, _⟩ := contiguous_split hc
      obtain ⟨m, hc, hc', _⟩ := contiguous_split hc
      have := (contiguous_le hc).2 y hy
      have := hc'.1
      show y.stop < o
      omega) h1 h2 hs0 hr
  exact ⟨p, l, t0, q0, s, q, e1, e2, g2, g3, r1, r2, r3, r4, r5⟩

theorem split_first (k : TT) (l : List Tok) : ∃ a b, l = a ++ b ∧ (∀ y ∈ a, y.type ≠ k) ∧
    ∀ y q, b = y :: q → y.type = k := by
  induction l with
  | nil => exact ⟨[], [], rfl, by simp, by simp⟩
  | cons t l ih =>
    by_cases ht : t.type = k
    · exact ⟨[], t :: l, rfl, by simp, by simp [ht]⟩
    · obtain ⟨a, b, h1, h2, h3⟩ := ih
      exact ⟨t :: a, b, by simp [h1], by simpa [ht] using h2, h3⟩

/-- Inside of a start tag. -/
theorem Doc.in_tag (h : Doc u cs void src roots ts) {pre post : List Tok} {t : Tok}
    (hts : ts = pre ++ t :: post) (hb : lastBracket (pre.map Tok.type) = some .StartTagOpen)
    (hnb : isBracket t.type = false) (h1 : t.offset < o) (h2 : o ≤ t.stop) :
    ∃ m ps p t0 mid, findNodeBefore roots o = some (m, ps) ∧ InForest roots m ∧ pre = p ++ t0 :: mid ∧
      t0.type = .StartTagOpen ∧ t0.offset = m.start ∧ m.start < t.offset ∧ t.stop ≤ m.startTagEnd.getD m.stop ∧
      (∀ y ∈ mid, isBracket y.type = false) ∧
      (lastNonWs (pre.map Tok.type) ≠ some .StartTagOpen → m.tag = lastText .StartTag src mid none) := by
  obtain ⟨m, hm, m1, m2, _, m4⟩ := h.enclosing hts hb hnb
  obtain ⟨p, t0, mid, hp, hk, hmid⟩ := lastBracket_split hb
  have hts0 : ts = p ++ t0 :: (mid ++ t :: post) := by rw [hts, hp]; simp
  have hm0 : t0 ∈ ts := by rw [hts0]; simp
  obtain ⟨m', hm', hs'⟩ := h.tok_node hm0 hk
  have hc := h.contiguous
  have hlt : t0.offset < t.stop := by
    have n0 := h.nonempty hm0 (.inl hk)
    rw [hts0] at hc
    obtain ⟨_, _, hc, _⟩ := contiguous_split hc
    obtain ⟨_, _, hc⟩ := hc
    have := contiguous_ge hc (t := t) (by simp)
    omega
  -- the node of the last bracket is the enclosing one
  have hst : t0.offset = m.start := by
    have h3 := m4 m' hm' (by omega)
    rcases Nat.lt_or_ge m'.start m.start with h4 | h4
    · exfalso
      obtain ⟨p', t', q', g1, g2, g3⟩ := h.node_tok hm
      have hm1 : t' ∈ ts := by rw [g1]; simp
      have hn1 := h.nonempty hm1 (.inl g2)
      have hq := before_of_lt hc hts0 hm1 (by omega) (by rintro rfl; omega)
      rcases List.mem_append.1 hq with hq | hq
      · have := hmid t' hq
        rw [g2] at this; cases this
      · rcases List.mem_cons.1 hq with rfl | hq
        · rw [g2] at hnb; cases hnb
        · have hc' := hc
          rw [hts] at hc'
          obtain ⟨_, _, hc', _⟩ := contiguous_split hc'
          obtain ⟨_, _, hc'⟩ := hc'
          have := contiguous_ge hc' hq
          omega
    · omega
  have hle : m.startTagEnd.getD m.stop ≤ m.stop := by
    cases hse : m.startTagEnd with
    | none => simp
    | some e =>
      obtain ⟨_, _, g3, g4⟩ := (parse_done h.parse hm).ste e hse
      have := g3.le
      simp; omega
  obtain ⟨ps, hf⟩ := h.locate (o := o) hm (by omega) (by omega) (fun k hk => by
    have := (h.inner_gt hm hk).1
    omega)
  refine ⟨m, ps, p, t0, mid, hf, hm, hp, hk, hst, m1, m2, hmid, fun hl => ?_⟩
  -- up to the next start tag
  obtain ⟨a, b, hab, ha, hb'⟩ := split_first .StartTagOpen post
  have htag := h.tag_eq (pre := p) (t0 := t0) (mid := mid ++ t :: a) (post := b) (by rw [hts0, hab]; simp) hk hm hst.symm (by
      intro y hy he
      rcases List.mem_append.1 hy with hy | hy
      · have := hmid y hy
        rw [he] at this; cases this
      · rcases List.mem_cons.1 hy with rfl | hy
        · rw [he] at hnb; cases hnb
        · exact ha y hy he) hb'
  rw [htag, lastText_append]
  refine lastText_none fun y hy hye => ?_
  obtain ⟨a1, a2, hs⟩ := List.append_of_mem hy
  have hts1 : ts = (pre ++ a1) ++ y :: (a2 ++ b) := by
    rw [hts, hab, List.append_assoc]
    congr 1
    rw [← List.cons_append, hs]; simp
  have hg := h.grammar hts1
  rw [hye] at hg
  have hg : lastNonWs ((pre ++ a1).map Tok.type) = some .StartTagOpen := hg
  unfold lastNonWs at hg hl
  rw [List.map_append, List.filter_append, List.getLast?_append] at hg
  cases hx : (List.filter (fun x => decide (x ≠ TT.Whitespace)) (a1.map Tok.type)).getLast? with
  | none => rw [hx] at hg; exact hl (by simpa using hg)
  | some k =>
    rw [hx] at hg
    simp only [Option.some_or, Option.some.injEq] at hg
    subst hg
    have := List.mem_of_getLast? hx
    obtain ⟨z, hz, hzk⟩ := List.mem_map.1 (List.mem_filter.1 this).1
    have hz : z ∈ t :: a := by rw [hs]; exact List.mem_append_left _ hz
    rcases List.mem_cons.1 hz with rfl | hz
    · rw [hzk] at hnb; cases hnb
    · exact ha z hz hzk

end Html
