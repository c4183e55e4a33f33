import Verif.Proof.ParseInv

/-! # Every parser step preserves the invariant -/

namespace Html
open Spec

/-- The element whose start tag is being read. -/
structure TagCore (c : Cfg) (n : Node) (pos : Nat) : Prop where
  lt : n.start < pos
  le : pos ≤ c.src.length
  opn : c.src[n.start]? = some 60
  ste : n.startTagEnd = none
  ets : n.endTagStart = none
  closed : n.closed = false
  kids : n.children = []
  nodup : (n.attributes.map (·.1)).Nodup
  attrs : ∀ x ∈ n.attributes, AttrAt c.src n.start pos x.1 x.2

structure InStartOpen (c : Cfg) (void : List Str) (p : PState) (pos : Nat) : Prop where
  core : TagCore c p.cur pos
  tag : p.cur.tag = none
  ws : ∃ w, Spaces w ∧ At c.src (p.cur.start + 1) w ∧ p.cur.start + 1 + w.length = pos
  stack : StackOK c void NoLeft p.cur.start p.parents

structure InTag (c : Cfg) (void : List Str) (p : PState) (pos : Nat) : Prop where
  core : TagCore c p.cur pos
  name : NameIs c.uni c.src (p.cur.start + 1) p.cur.tag pos
  slash : At c.src (pos - 1) b!"/>" → p.cur.tag = none ∨ SlashValue c.src p.cur.attributes pos
  stack : StackOK c void NoLeft p.cur.start p.parents

structure InAttr (c : Cfg) (void : List Str) (p : PState) (pos : Nat) : Prop where
  tag : InTag c void p pos
  pend : ∃ a off w, p.pending = some a ∧ attrGet p.cur.attributes a = some ⟨none, off⟩ ∧
    AttributeName a ∧ p.cur.start < off ∧ Spaces w ∧ At c.src off (a ++ w) ∧
    off + (a ++ w).length = pos

structure InVal (c : Cfg) (void : List Str) (p : PState) (pos : Nat) : Prop where
  tag : InTag c void p pos
  pend : ∃ a off w, p.pending = some a ∧ attrGet p.cur.attributes a = some ⟨some [], off⟩ ∧
    AttributeName a ∧ p.cur.start < off ∧ Spaces w ∧ At c.src off (a ++ w ++ b!"=") ∧
    off + (a ++ w ++ b!"=").length = pos

def InContent (c : Cfg) (void : List Str) (p : PState) (pos : Nat) : Prop :=
  StackOK c void NoLeft pos (p.cur :: p.parents)

structure InEndOpen (c : Cfg) (void : List Str) (p : PState) (pos : Nat) : Prop where
  ex : ∃ e w, p.endTagStart = some e ∧ p.endTagName = none ∧ At c.src e b!"</" ∧ Spaces w ∧
    At c.src (e + 2) w ∧ e + 2 + w.length = pos ∧ pos ≤ c.src.length ∧
    StackOK c void NoLeft e (p.cur :: p.parents)

structure InEnd (c : Cfg) (void : List Str) (p : PState) (pos : Nat) : Prop where
  ex : ∃ e raw, p.endTagStart = some e ∧ p.endTagName = raw.map (foldName c.uni c.caseSensitive) ∧
    At c.src e b!"</" ∧ e < pos ∧ NameIs c.uni c.src (e + 2) raw pos ∧ pos ≤ c.src.length ∧
    StackOK c void NoLeft e (p.cur :: p.parents)

/-- The parser invariant, by scanner state. -/
def PInv (c : Cfg) (void : List Str) (p : PState) (s : Sc) : Prop :=
  match s.state with
  | .WithinContent | .WithinComment | .WithinDoctype | .WithinScriptContent | .WithinStyleContent =>
    InContent c void p s.pos
  | .AfterOpeningEndTag => InEndOpen c void p s.pos
  | .WithinEndTag => InEnd c void p s.pos
  | .AfterOpeningStartTag => InStartOpen c void p s.pos
  | .WithinTag => InTag c void p s.pos
  | .AfterAttributeName => InAttr c void p s.pos
  | .BeforeAttributeValue => InVal c void p s.pos

variable {c : Cfg} {void : List Str} {p : PState} {pos pos' : Nat}

theorem TagCore.mono {n : Node} (h : TagCore c n pos) (h1 : pos ≤ pos') (h2 : pos' ≤ c.src.length) :
    TagCore c n pos' :=
  ⟨by have := h.lt; omega, h2, h.opn, h.ste, h.ets, h.closed, h.kids, h.nodup,
    fun x hx => (h.attrs x hx).mono h1⟩

theorem InTag.mono (h : InTag c void p pos) (h1 : pos ≤ pos') (h2 : pos' ≤ c.src.length)
    (h3 : At c.src (pos' - 1) b!"/>" → p.cur.tag = none ∨ SlashValue c.src p.cur.attributes pos') :
    InTag c void p pos' := ⟨h.core.mono h1 h2, h.name.mono h1, h3, h.stack⟩

theorem at_slash {src : Str} {i : Nat} (h : At src i b!"/>") :
    src[i]? = some 47 ∧ src[i + 1]? = some 62 := by
  obtain ⟨r, h⟩ := h
  refine ⟨at_get ⟨62 :: r, h⟩, at_get ⟨r, ?_⟩⟩
  rw [← List.drop_drop, h]; rfl

/-- The byte at the end of the `n` bytes after `pos`. -/
theorem last_taken {src : Str} {pos n b : Nat} (h0 : 0 < n) (hg : src[pos + n - 1]? = some b) :
    b ∈ (src.drop pos).take n := by
  rw [List.mem_iff_getElem?]
  refine ⟨n - 1, ?_⟩
  rw [List.getElem?_take, if_pos (by omega), List.getElem?_drop]
  have e : pos + (n - 1) = pos + n - 1 := by omega
  rw [e]; exact hg

theorem noSlash_of {src : Str} {pos n : Nat} {P : Prop} (h0 : 0 < n) (hn : 47 ∉ (src.drop pos).take n)
    (h : At src (pos + n - 1) b!"/>") : P :=
  absurd (last_taken h0 (at_slash h).1) hn

theorem noSlash_ws {r : Str} : 47 ∉ r.take (wsLen r) := fun h => by
  have := isWs_space (wsLen_all h)
  unfold Space at this; omega

theorem InEnd.mono (h : InEnd c void p pos) (h1 : pos ≤ pos') (h2 : pos' ≤ c.src.length) :
    InEnd c void p pos' := by
  obtain ⟨e, raw, a, b, d, f, g, i, j⟩ := h
  exact ⟨e, raw, a, b, d, by omega, g.mono h1, h2, j⟩

theorem InEnd.content (h : InEnd c void p pos) (h1 : pos ≤ pos') (h2 : pos' ≤ c.src.length) :
    InContent c void p pos' := by
  obtain ⟨e, raw, a, b, d, f, g, i, j⟩ := h
  exact j.mono (by omega) h2

theorem InStartOpen.noName (h : InStartOpen c void p pos)
    (hb : ∀ b, c.src[pos]? = some b → ¬ NameStartByte b) : InTag c void p pos := by
  obtain ⟨w, h1, h2, h3⟩ := h.ws
  refine ⟨h.core, ?_, fun _ => .inl h.tag, h.stack⟩
  rw [h.tag]
  exact ⟨⟨w, h1, h2, by rw [h3]; exact hb, by omega⟩, fun t ht => by cases ht⟩

theorem InEndOpen.noName (h : InEndOpen c void p pos)
    (hb : ∀ b, c.src[pos]? = some b → ¬ NameStartByte b) : InEnd c void p pos := by
  obtain ⟨e, w, h1, h2, h3, h4, h5, h6, h7, h8⟩ := h
  exact ⟨e, none, h1, h2, h3, by omega, ⟨⟨w, h4, h5, by rw [h6]; exact hb, by omega⟩, fun t ht => by cases ht⟩, h7, h8⟩

theorem Spaces.append {a b : Str} (h1 : Spaces a) (h2 : Spaces b) : Spaces (a ++ b) := by
  intro x hx
  rcases List.mem_append.1 hx with h | h
  · exact h1 x h
  · exact h2 x h

theorem wsLen_spaces (r : Str) : Spaces (r.take (wsLen r)) := fun _ hb => isWs_space (wsLen_all hb)

theorem InStartOpen.ws' (h : InStartOpen c void p pos) :
    InStartOpen c void p (pos + wsLen (c.src.drop pos)) := by
  obtain ⟨w, h1, h2, h3⟩ := h.ws
  have hle := wsLen_le (c.src.drop pos)
  have := h.core.le
  simp only [List.length_drop] at hle
  refine ⟨h.core.mono (by omega) (by omega), h.tag,
    ⟨w ++ (c.src.drop pos).take (wsLen (c.src.drop pos)), Spaces.append h1 (wsLen_spaces _),
      h2.append (by rw [h3]; exact at_take _ _ _), ?_⟩, h.stack⟩
  simp; omega

theorem InEndOpen.ws' (h : InEndOpen c void p pos) :
    InEndOpen c void p (pos + wsLen (c.src.drop pos)) := by
  obtain ⟨e, w, h1, h2, h3, h4, h5, h6, h7, h8⟩ := h
  have hle := wsLen_le (c.src.drop pos)
  simp only [List.length_drop] at hle
  refine ⟨e, w ++ (c.src.drop pos).take (wsLen (c.src.drop pos)), h1, h2, h3,
    Spaces.append h4 (wsLen_spaces _), h5.append (by rw [h6]; exact at_take _ _ _), ?_, by omega, h8⟩
  simp; omega

theorem nameIs_some {i : Nat} {w : Str} (h0 : 0 < elementNameLen c.uni (c.src.drop pos))
    (hb : isBoundary c.src pos = true) (h1 : Spaces w) (h2 : At c.src i w) (h3 : i + w.length = pos) :
    NameIs c.uni c.src i (some ((c.src.drop pos).take (elementNameLen c.uni (c.src.drop pos))))
      (pos + elementNameLen c.uni (c.src.drop pos)) := by
  have hle := elementNameLen_le c.uni (c.src.drop pos)
  have hlen : ((c.src.drop pos).take (elementNameLen c.uni (c.src.drop pos))).length
    = elementNameLen c.uni (c.src.drop pos) := by rw [List.length_take]; omega
  have hat := h2.append (y := (c.src.drop pos).take (elementNameLen c.uni (c.src.drop pos)))
    (by rw [h3]; exact at_take _ _ _)
  refine ⟨⟨w, h1, hat, elementName_spec h0, ?_, ?_⟩, ?_⟩
  · intro b hb
    rw [hlen, h3] at hb
    exact elementName_stop h0 (by simpa using hb)
  · rw [hlen]; omega
  · intro t ht
    cases ht
    exact ⟨w, h1, hat, by rw [hlen]; omega, by rw [h3]; exact hb, by rw [h3, hlen]⟩

theorem InStartOpen.name (h : InStartOpen c void p pos) (hb : isBoundary c.src pos = true)
    (h0 : 0 < elementNameLen c.uni (c.src.drop pos)) :
    InTag c void { p with cur := { p.cur with
      tag := some ((c.src.drop pos).take (elementNameLen c.uni (c.src.drop pos))) } }
      (pos + elementNameLen c.uni (c.src.drop pos)) := by
  obtain ⟨w, h1, h2, h3⟩ := h.ws
  have hle := elementNameLen_le c.uni (c.src.drop pos)
  have := h.core.le
  simp only [List.length_drop] at hle
  have hm := h.core.mono (pos' := pos + elementNameLen c.uni (c.src.drop pos)) (by omega) (by omega)
  refine ⟨⟨hm.lt, hm.le, hm.opn, hm.ste, hm.ets, hm.closed, hm.kids, hm.nodup, hm.attrs⟩,
    nameIs_some h0 hb h1 h2 h3, noSlash_of h0 (fun hm => ?_), h.stack⟩
  have := (elementName_spec h0).2.1 47 hm (by omega)
  unfold alnum at this; omega

theorem InEndOpen.name (h : InEndOpen c void p pos) (hb : isBoundary c.src pos = true)
    (h0 : 0 < elementNameLen c.uni (c.src.drop pos)) :
    InEnd c void { p with endTagName := some (foldName c.uni c.caseSensitive
        ((c.src.drop pos).take (elementNameLen c.uni (c.src.drop pos)))) }
      (pos + elementNameLen c.uni (c.src.drop pos)) := by
  obtain ⟨e, w, h1, h2, h3, h4, h5, h6, h7, h8⟩ := h
  have hle := elementNameLen_le c.uni (c.src.drop pos)
  simp only [List.length_drop] at hle
  exact ⟨e, _, h1, rfl, h3, by omega, nameIs_some h0 hb h4 h5 h6, by omega, h8⟩

/-! ### Opening and closing -/

theorem InContent.startTag (h : InContent c void p pos) (h60 : c.src[pos]? = some 60) :
    InStartOpen c void { p with cur := Node.new pos c.src.length [], parents := p.cur :: p.parents }
      (pos + 1) := by
  have hlt := (List.getElem?_eq_some_iff.1 h60).1
  refine ⟨⟨?_, by omega, h60, rfl, rfl, rfl, rfl, by simp [Node.new], by simp [Node.new]⟩, rfl,
    ⟨[], by simp [Spaces], At.nil _ _, by simp [Node.new]⟩, h⟩
  simp [Node.new]

theorem InContent.endTag (h : InContent c void p pos) (hat : At c.src pos b!"</") :
    InEndOpen c void { p with endTagStart := some pos, endTagName := none } (pos + 2) := by
  have hle : pos + 2 ≤ c.src.length := by
    obtain ⟨r, hr⟩ := hat
    have := congrArg List.length hr
    simp at this; omega
  exact ⟨pos, [], rfl, rfl, hat, by simp [Spaces], At.nil _ _, by simp, hle, h⟩

theorem StackOK.cons {Q : Node → Prop} {hi : Nat} {n : Node} {l : List Node}
    (h1 : OpenN c void Q hi n) (h2 : StackOK c void NoLeft n.start l) :
    StackOK c void Q hi (n :: l) := by
  cases l with
  | nil => exact absurd h2 (fun h => h)
  | cons q qs => exact ⟨h1, h2⟩

/-- The start tag ends with `>`. -/
theorem InTag.close {s : Sc} (h : InTag c void p pos) (hty : s.tokenType = .StartTagClose)
    (hend : s.tokenEnd = pos + 1) (hlen : s.tokenLength > 0) (hat : At c.src pos b!">") :
    ∃ p', parseStep c void p s = .ok p' ∧ InContent c void p' (pos + 1) := by
  have hlt := (List.getElem?_eq_some_iff.1 (at_get hat)).1
  obtain ⟨q, qs, hq⟩ : ∃ q qs, p.parents = q :: qs := by
    have := h.stack
    cases hp : p.parents with
    | nil => rw [hp] at this; exact absurd this (fun h => h)
    | cons q qs => exact ⟨q, qs, rfl⟩
  have hcore := h.core
  have hsub : pos + 1 - 1 = pos := by omega
  unfold parseStep
  rw [hty]
  simp only [hq, List.isEmpty_cons, Bool.false_eq_true, if_false, hend, hlen, if_true]
  split
  · rename_i hv
    refine ⟨_, by simp only [PState.pop]; rfl, ?_⟩
    have hst := h.stack
    rw [hq] at hst
    refine StackOK.add (n := { p.cur with stop := pos + 1, startTagEnd := some (pos + 1), closed := true })
      hst ⟨?_, ?_⟩ rfl ?_
    · refine ⟨by have := hcore.lt; simp only; omega, by simp only; omega, hcore.opn, ?_, ?_, hcore.nodup,
        ?_, ?_, ?_, ?_, ?_, ?_, ?_, ?_⟩
      · exact h.name.mono (by simp)
      · intro x hx; exact (hcore.attrs x hx).mono (by simp)
      · intro e he
        cases he
        refine ⟨by have := hcore.lt; simp only; omega, by rw [hsub]; exact hat, ?_, ?_⟩
        · simp [hcore.kids, Siblings, contentEnd, hcore.ets]
        · simp [contentEnd, hcore.ets]
      · simp
      · intro e he; simp [hcore.ets] at he
      · intro _ _
        refine ⟨rfl, hcore.kids, .inr ?_⟩
        simp only [Option.any_eq_true] at hv
        obtain ⟨t, ht, hv⟩ := hv
        exact ⟨t, ht, by simpa using hv⟩
      · intro d hd; simp [hcore.kids] at hd
      · intro e he; simp [hcore.ets] at he
      · intro t ht hv _; exact ⟨rfl, hcore.ets⟩
      · intro e he _; exact .inl ⟨rfl, hcore.ets⟩
    · intro d hd; simp [hcore.kids] at hd
    · intro ho; simp [LeftOpen] at ho
  · rename_i hv
    refine ⟨_, rfl, ?_⟩
    have hst := h.stack
    rw [hq] at hst
    refine StackOK.cons ?_ hst
    refine ⟨hcore.opn, hcore.closed, hcore.ets, hcore.nodup, ?_, pos + 1, rfl, ?_, ?_, ?_, ?_, ?_, ?_⟩
    · intro t ht hm
      apply hv
      simp only [Option.any_eq_true]
      exact ⟨t, ht, by simpa using hm⟩
    · have := hcore.lt; simp only; omega
    · rw [hsub]; exact hat
    · exact h.name.mono (by omega)
    · intro x hx; exact (hcore.attrs x hx).mono (by omega)
    · have e2 : pos + 1 - 2 = pos - 1 := by omega
      rw [e2, Nat.add_sub_cancel]; exact h.slash
    · refine ⟨?_, by omega, ?_, ?_⟩
      · simp [hcore.kids, Siblings]
      · intro d hd; simp [hcore.kids] at hd
      · intro d hd; simp [hcore.kids] at hd

/-- The start tag ends with `/>`. -/
theorem InTag.selfClose {s : Sc} (h : InTag c void p pos) (hty : s.tokenType = .StartTagSelfClose)
    (hend : s.tokenEnd = pos + 2) (hat : At c.src pos b!"/>") :
    ∃ p', parseStep c void p s = .ok p' ∧ InContent c void p' (pos + 2) := by
  have hat2 : At c.src (pos + 1) b!">" := by
    obtain ⟨r, hr⟩ := hat
    refine ⟨r, ?_⟩
    rw [← List.drop_drop, hr]; rfl
  have hlt := (List.getElem?_eq_some_iff.1 (at_get hat2)).1
  obtain ⟨q, qs, hq⟩ : ∃ q qs, p.parents = q :: qs := by
    have := h.stack
    cases hp : p.parents with
    | nil => rw [hp] at this; exact absurd this (fun h => h)
    | cons q qs => exact ⟨q, qs, rfl⟩
  have hcore := h.core
  have hsub : pos + 2 - 1 = pos + 1 := by omega
  unfold parseStep
  rw [hty]
  simp only [hq, List.isEmpty_cons, Bool.false_eq_true, if_false, hend]
  refine ⟨_, by simp only [PState.pop]; rfl, ?_⟩
  have hst := h.stack
  rw [hq] at hst
  refine StackOK.add (n := { p.cur with closed := true, stop := pos + 2, startTagEnd := some (pos + 2) })
    hst ⟨?_, ?_⟩ rfl ?_
  · refine ⟨by have := hcore.lt; simp only; omega, by simp only; omega, hcore.opn, ?_, ?_, hcore.nodup,
      ?_, ?_, ?_, ?_, ?_, ?_, ?_, ?_⟩
    · exact h.name.mono (by simp)
    · intro x hx; exact (hcore.attrs x hx).mono (by simp)
    · intro e he
      cases he
      refine ⟨by have := hcore.lt; simp only; omega, by rw [hsub]; exact hat2, ?_, ?_⟩
      · simp [hcore.kids, Siblings, contentEnd, hcore.ets]
      · simp [contentEnd, hcore.ets]
    · simp
    · intro e he; simp [hcore.ets] at he
    · intro _ _
      exact ⟨rfl, hcore.kids, .inl (by simpa using hat)⟩
    · intro d hd; simp [hcore.kids] at hd
    · intro e he; simp [hcore.ets] at he
    · intro t ht hv _; exact ⟨rfl, hcore.ets⟩
    · intro e he _; exact .inl ⟨rfl, hcore.ets⟩
  · intro d hd; simp [hcore.kids] at hd
  · intro ho; simp [LeftOpen] at ho

/-- An element whose start tag is cut off at `pos`. -/
theorem InTag.cut {stop : Nat} (h : InTag c void p pos) (hs : pos ≤ stop) (hle : stop ≤ c.src.length)
    (hat : c.src[stop]? = some 60 ∨ stop = c.src.length) :
    Deep (Done c void) { p.cur with stop := stop } := by
  have hcore := h.core
  refine ⟨?_, ?_⟩
  · refine ⟨by have := hcore.lt; simp only; omega, by simp only; omega, hcore.opn, ?_, ?_, hcore.nodup,
      ?_, ?_, ?_, ?_, ?_, ?_, ?_, ?_⟩
    · simpa [hcore.ste] using h.name.mono hs
    · intro x hx; simpa [hcore.ste] using (hcore.attrs x hx).mono hs
    · intro e he; simp [hcore.ste] at he
    · intro _; exact ⟨hcore.kids, hcore.ets, hcore.closed, hat⟩
    · intro e he; simp [hcore.ets] at he
    · intro hc; simp [hcore.closed] at hc
    · intro d hd; simp [hcore.kids] at hd
    · intro e he; simp [hcore.ets] at he
    · intro t ht hv hn; exact absurd hcore.ste hn
    · intro e he; simp [hcore.ste] at he
  · intro d hd; simp [hcore.kids] at hd

theorem InTag.pseudo {s : Sc} (h : InTag c void p pos) (hty : s.tokenType = .StartTagClose)
    (hend : s.tokenEnd = pos) (hlen : ¬ s.tokenLength > 0) (hat : c.src[pos]? = some 60) :
    ∃ p', parseStep c void p s = .ok p' ∧ InContent c void p' pos := by
  obtain ⟨q, qs, hq⟩ : ∃ q qs, p.parents = q :: qs := by
    have := h.stack
    cases hp : p.parents with
    | nil => rw [hp] at this; exact absurd this (fun h => h)
    | cons q qs => exact ⟨q, qs, rfl⟩
  unfold parseStep
  rw [hty]
  simp only [hq, List.isEmpty_cons, Bool.false_eq_true, if_false, hend, hlen]
  refine ⟨_, by simp only [PState.pop]; rfl, ?_⟩
  have hst := h.stack
  rw [hq] at hst
  refine StackOK.add (n := { p.cur with stop := pos })
    hst (h.cut (Nat.le_refl _) h.core.le (.inl hat)) rfl ?_
  intro ho; exact absurd h.core.ste ho.2

/-! ### Attributes -/

theorem InTag.attrName {n : Nat} (h : InTag c void p pos) (hn : n = attrNameLen (c.src.drop pos))
    (h0 : 0 < n) :
    InAttr c void { p with
      pending := some ((c.src.drop pos).take n),
      cur := { p.cur with
        attributes := attrInsert p.cur.attributes ((c.src.drop pos).take n) ⟨none, pos⟩ } } (pos + n) := by
  have hle := attrNameLen_le (c.src.drop pos)
  rw [← hn] at hle
  have hlen : ((c.src.drop pos).take n).length = n := by rw [List.length_take]; omega
  have hname : AttributeName ((c.src.drop pos).take n) := by
    rw [hn] at h0 ⊢; exact attributeName_spec h0
  have hle2 : pos + n ≤ c.src.length := by
    have := h.core.le; simp only [List.length_drop] at hle; omega
  have hc := h.core.mono (pos' := pos + n) (by omega) hle2
  refine ⟨⟨⟨hc.lt, hc.le, hc.opn, hc.ste, hc.ets, hc.closed, hc.kids, attrInsert_nodup hc.nodup, ?_⟩,
    h.name.mono (by omega), noSlash_of h0 (fun hm => by have := hname.2 47 hm (by omega); omega),
    h.stack⟩, ?_⟩
  · intro x hx
    rcases mem_attrInsert hx with rfl | hx
    · exact ⟨hname, h.core.lt, at_take _ _ _, by rw [hlen]; exact Nat.le_refl _⟩
    · exact hc.attrs x hx
  · refine ⟨_, pos, [], rfl, attrGet_insert _ _ _, hname, h.core.lt, by simp [Spaces], ?_, ?_⟩
    · rw [List.append_nil]; exact at_take _ _ _
    · rw [List.append_nil, hlen]

theorem InAttr.ws (h : InAttr c void p pos) :
    InAttr c void p (pos + wsLen (c.src.drop pos)) := by
  have hle := wsLen_le (c.src.drop pos)
  simp only [List.length_drop] at hle
  have := h.tag.core.le
  obtain ⟨a, off, w, h1, h2, h3, h4, h5, h6, h7⟩ := h.pend
  have htag : InTag c void p (pos + wsLen (c.src.drop pos)) := by
    refine h.tag.mono (by omega) (by omega) ?_
    rcases Nat.eq_zero_or_pos (wsLen (c.src.drop pos)) with h0 | h0
    · rw [h0]; exact h.tag.slash
    · exact noSlash_of h0 noSlash_ws
  refine ⟨htag, a, off, w ++ (c.src.drop pos).take (wsLen (c.src.drop pos)),
    h1, h2, h3, h4, Spaces.append h5 (wsLen_spaces _), ?_, ?_⟩
  · rw [← List.append_assoc]
    exact h6.append (by rw [h7]; exact at_take _ _ _)
  · simp only [List.length_append, List.length_take, List.length_drop] at *; omega

theorem InAttr.assign {s : Sc} (h : InAttr c void p pos) (hty : s.tokenType = .DelimiterAssign)
    (hat : c.src[pos]? = some 61) :
    ∃ p', parseStep c void p s = .ok p' ∧ InVal c void p' (pos + 1) := by
  have hlt := (List.getElem?_eq_some_iff.1 hat).1
  obtain ⟨a, off, w, h1, h2, h3, h4, h5, h6, h7⟩ := h.pend
  unfold parseStep
  rw [hty]
  simp only [h1, attrSetValue_eq, h2]
  refine ⟨_, rfl, ?_⟩
  have hc := h.tag.core.mono (pos' := pos + 1) (by omega) (by omega)
  have hat2 : At c.src off (a ++ w ++ b!"=") := h6.append (by rw [h7]; exact at_single hat)
  have hl2 : off + (a ++ w ++ b!"=").length = pos + 1 := by
    rw [List.length_append]; simp only [List.length_singleton]; omega
  refine ⟨⟨⟨hc.lt, hc.le, hc.opn, hc.ste, hc.ets, hc.closed, hc.kids, attrInsert_nodup hc.nodup, ?_⟩,
    h.tag.name.mono (by omega), ?_, h.tag.stack⟩, a, off, w, rfl, attrGet_insert _ _ _, h3, h4, h5, hat2, hl2⟩
  intro x hx
  rcases mem_attrInsert hx with rfl | hx
  · refine ⟨h3, h4, w, h5, ?_, ?_, .inl rfl⟩
    · rw [List.append_nil]; exact hat2
    · rw [List.append_nil]; exact Nat.le_of_eq hl2
  · exact hc.attrs x hx
  · intro hs
    have := (at_slash hs).1
    rw [Nat.add_sub_cancel, hat] at this
    cases this

theorem InVal.value {s : Sc} {n : Nat} (h : InVal c void p pos) (hty : s.tokenType = .AttributeValue)
    (htx : tokenText c s = .ok ((c.src.drop pos).take n)) (hn : n ≤ (c.src.drop pos).length)
    (hv : UnquotedValue ((c.src.drop pos).take n) ∨
      QuotedValue (pos + n = c.src.length) ((c.src.drop pos).take n)) :
    ∃ p', parseStep c void p s = .ok p' ∧ InTag c void p' (pos + n) := by
  obtain ⟨a, off, w, h1, h2, h3, h4, h5, h6, h7⟩ := h.pend
  unfold parseStep
  rw [hty]
  simp only [h1, attrSetValue_eq, h2, htx]
  refine ⟨_, rfl, ?_⟩
  have := h.tag.core.le
  rw [List.length_drop] at hn
  have hc := h.tag.core.mono (pos' := pos + n) (by omega) (by omega)
  refine ⟨⟨hc.lt, hc.le, hc.opn, hc.ste, hc.ets, hc.closed, hc.kids, attrInsert_nodup hc.nodup, ?_⟩,
    h.tag.name.mono (by omega), ?_, h.tag.stack⟩
  · intro x hx
    rcases mem_attrInsert hx with rfl | hx
    · have hl : off + (a ++ w ++ b!"=" ++ (c.src.drop pos).take n).length = pos + n := by
        simp only [List.length_append, List.length_take, List.length_drop] at *; omega
      refine ⟨h3, h4, w, h5, h6.append (by rw [h7]; exact at_take _ _ _), by rw [hl]; exact Nat.le_refl _, .inr ?_⟩
      rw [hl]; exact hv
    · exact hc.attrs x hx
  · intro hs
    have hl : off + (a ++ w ++ b!"=" ++ (c.src.drop pos).take n).length = pos + n := by
      simp only [List.length_append, List.length_take, List.length_drop] at *; omega
    have h0 : 0 < n := by
      rcases Nat.eq_zero_or_pos n with h0 | h0
      · subst h0
        rcases hv with ⟨b, hb, _, hx⟩ | ⟨q, b, _, _, hx⟩
        · rcases hx with hx | hx | hx <;> simp at hx; exact absurd hx.symm (by simpa using hb)
        · rcases hx with hx | hx <;> simp at hx
      · exact h0
    refine .inr ⟨_, attrGet_mem (attrGet_insert _ _ _), _, w, rfl, ?_, h5,
      h6.append (by rw [h7]; exact at_take _ _ _), hl⟩
    have e : ((c.src.drop pos).take n).length = n := by
      simp only [List.length_take, List.length_drop]; omega
    rw [List.getLast?_eq_getElem?, e, List.getElem?_take, if_pos (by omega), List.getElem?_drop]
    have e2 : pos + (n - 1) = pos + n - 1 := by omega
    rw [e2]; exact (at_slash hs).1

end Html
