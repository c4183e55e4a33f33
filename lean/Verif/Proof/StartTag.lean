import Verif.Proof.ParseInfo

/-! # The tokens of the start tag of a parsed element -/

namespace Html
open Spec

variable {c : Cfg} {void : List Str}

theorem Run.snoc {s s1 s2 : Sc} {ts : List Tok} (h : Run c s ts s1) (hs : scan c s1 = .ok s2)
    (hne : s2.tokenType ≠ .EOS) : Run c s (ts ++ [s2.tok]) s2 := by
  induction h with
  | nil s => exact .cons hs hne (.nil _)
  | cons h hn hr ih => exact .cons h hn (ih hs)

/-- The `<` at `a` opens a start tag. -/
structure OpensTag (src : Str) (a : Nat) : Prop where
  opn : src[a]? = some 60
  notEnd : (b!"</").isPrefixOf (src.drop a) = false
  notComment : (b!"<!--").isPrefixOf (src.drop a) = false
  notDoctype : (b!"<!doctype").isPrefixOf ((src.drop a).map lowerByte) = false

/-- The tokens of a start tag that has been read so far: from behind its `<` up to the scanner
state `s`. -/
structure OpenRun (c : Cfg) (n : Node) (s0 : Sc) (ts : List Tok) (s : Sc) : Prop where
  opens : OpensTag c.src n.start
  state : s0.state = .AfterOpeningStartTag
  pos : s0.pos = n.start + 1
  run : Run c s0 ts s
  inner : ∀ t ∈ ts, isBracket t.type = false
  nameless : n.tag = none → (∀ t ∈ ts, t.type ≠ .AttributeName) 

/-- Neither an attribute name nor a value. -/
def NotAttr (t : Tok) : Prop := t.type ≠ .AttributeName ∧ t.type ≠ .AttributeValue

/-- No value comes before the next attribute name. -/
def NoValueNext (ts : List Tok) : Prop :=
  (∀ m ∈ ts, NotAttr m) ∨ ∃ mid t post, ts = mid ++ t :: post ∧ (∀ m ∈ mid, NotAttr m) ∧ t.type = .AttributeName

/-- The tokens of the attribute `x`: a name and, if it has a value, the next of names and values is its value. -/
def WrittenBy (src : Str) (ts : List Tok) (x : Str × Attr) : Prop :=
  ∃ pre t post, ts = pre ++ t :: post ∧ t.type = .AttributeName ∧ t.offset = x.2.offset ∧
    t.stop = x.2.offset + x.1.length ∧ text src t = x.1 ∧
    (((x.2.value = none ∨ x.2.value = some []) ∧ NoValueNext post) ∨
      ∃ v w mid t2 post2, x.2.value = some v ∧ v ≠ [] ∧ post = mid ++ t2 :: post2 ∧ (∀ m ∈ mid, NotAttr m) ∧
        t2.type = .AttributeValue ∧ t2.offset = x.2.offset + (x.1 ++ w ++ b!"=").length ∧
        t2.stop = t2.offset + v.length ∧ Spaces w ∧ At src x.2.offset (x.1 ++ w ++ b!"=" ++ v))

/-- The attribute that is being read is the one of the last name. -/
def PendingTok (src : Str) (ts : List Tok) (p : PState) : Prop :=
  ∃ a pre t post, p.pending = some a ∧ ts = pre ++ t :: post ∧ t.type = .AttributeName ∧
    t.stop = t.offset + a.length ∧ text src t = a ∧ (∀ m ∈ post, NotAttr m) ∧
    ∃ v, (v = none ∨ v = some []) ∧ attrGet p.cur.attributes a = some ⟨v, t.offset⟩

/-- The attributes read so far are the ones of the tokens. -/
structure AttrToks (src : Str) (p : PState) (s : Sc) (ts : List Tok) : Prop where
  written : ∀ x ∈ p.cur.attributes, WrittenBy src ts x
  last : s.state = .AfterAttributeName ∨ s.state = .BeforeAttributeValue → PendingTok src ts p

/-- The tokens of the start tag of the node `n` that ends at `e`. -/
structure StartRun (c : Cfg) (n : Node) (e : Nat) (s0 : Sc) (ts : List Tok) (s1 s2 : Sc) : Prop where
  inner : OpenRun c n s0 ts s1
  last : scan c s1 = .ok s2
  lt : s1.pos < s2.pos
  stop : s2.pos = e
  type : s2.tokenType = .StartTagClose ∨ s2.tokenType = .StartTagSelfClose
  slash : At c.src (e - 2) b!"/>" → s2.tokenType = .StartTagSelfClose ∨ n.tag = none ∨
    SlashValue c.src n.attributes (e - 1)
  attrs : ∀ x ∈ n.attributes, WrittenBy c.src ts x

/-- The start tag of the node, if complete, has been read as a start tag. -/
def HasRun (c : Cfg) (n : Node) : Prop :=
  ∀ e, n.startTagEnd = some e → ∃ s0 ts s1 s2, StartRun c n e s0 ts s1 s2

/-- A nameless start tag is left only through its `>`. -/
def Nameless (c : Cfg) (s : Sc) : Prop :=
  s.state = .AfterOpeningStartTag ∨
  (s.state = .WithinTag ∧ ((rest c s).head? = some 62 ∨ rest c s = []))

structure RunInv (c : Cfg) (p : PState) (s : Sc) : Prop where
  nodes : ∀ q ∈ p.cur :: p.parents, Deep (HasRun c) q
  opn : s.state.inStart = true → p.cur.startTagEnd = none ∧ (p.cur.tag = none → Nameless c s) ∧
    ∃ s0 ts, OpenRun c p.cur s0 ts s ∧ AttrToks c.src p s ts

/-- How start tags are entered, read and left. -/
structure StartFacts (c : Cfg) (s s' : Sc) : Prop where
  enter : s'.tokenType = .StartTagOpen →
    OpensTag c.src s.pos ∧ s'.state = .AfterOpeningStartTag ∧ s'.pos = s.pos + 1
  close : s'.tokenType = .StartTagClose ∨ s'.tokenType = .StartTagSelfClose →
    s.state.inStart = true ∧ s'.state.inStart = false
  stay : s'.state.inStart = true → s'.tokenType ≠ .StartTagOpen →
    s.state.inStart = true ∧ isBracket s'.tokenType = false
  nameless : s'.state.inStart = true → Nameless c s → s'.tokenType ≠ .StartTag →
    Nameless c s' ∧ s'.tokenType ≠ .AttributeName

theorem StepContent.startFacts {s s' a : Sc} (h : StepContent c a s') (ha : a.state = .WithinContent)
    (hp : a.pos = s.pos) (hs : s.state.inStart = false) : StartFacts c s s' := by
  have hn : ¬ Nameless c s := by
    rintro (h | ⟨h, _⟩) <;> rw [h] at hs <;> cases hs
  have hr : rest c a = c.src.drop s.pos := by unfold rest; rw [hp]
  cases h with
  | startTagOpen h h2 h3 h4 =>
    rw [hr] at h h2 h3 h4
    refine ⟨fun _ => ⟨⟨by simpa using h, h2, h3, h4⟩, rfl, by simp [fin, adv, hp]⟩, ?_, ?_, ?_⟩
    · simp [fin, adv]
    · simp [fin, adv]
    · intro _ h; exact absurd h hn
  | _ => constructor <;> simp [fin, adv, ha, SS.inStart]

theorem inStart_afterStartTag (s : Sc) : (afterStartTag s).inStart = false := by
  rcases afterStartTag_content s with h | h | h <;> rw [h] <;> rfl

theorem TagPre.state_eq {s s1 : Sc} (h : TagPre c s s1) : s1.state = s.state := by
  cases h <;> rfl

theorem StepTag.startFacts {s s' a : Sc} (h : StepTag c a s') (ha : a.state = .WithinTag)
    (hs : s.state.inStart = true) (hp : a.pos = s.pos)
    (hn : Nameless c s → s.state = .WithinTag) (hlt : s.pos < c.src.length) : StartFacts c s s' := by
  have hr : rest c a = rest c s := by unfold rest; rw [hp]
  have hn2 : Nameless c s → (rest c a).head? = some 62 := by
    intro h0
    have h1 := hn h0
    rcases h0 with h0 | ⟨_, h0 | h0⟩
    · rw [h0] at h1; cases h1
    · rw [hr]; exact h0
    · exact absurd h0 (rest_ne_nil hlt)
  cases h with
  | ws h =>
    refine ⟨by simp [fin, adv], by simp [fin, adv], fun _ _ => ⟨hs, rfl⟩, fun _ h0 => ?_⟩
    have := (wsLen_zero_iff (s := rest c a)).2 (fun b hb => by rw [hn2 h0] at hb; cases hb; rfl)
    omega
  | attrName h1 hw hb h =>
    refine ⟨by simp [fin, adv], by simp [fin, adv], fun _ _ => ⟨hs, rfl⟩, fun _ h0 => ?_⟩
    obtain ⟨b, t, he, hc⟩ := firstRunLen_head h
    have h2 := hn2 h0
    rw [he] at h2
    cases h2
    cases hc
  | selfClose s1 hp1 h =>
    exact ⟨by simp [fin, adv], fun _ => ⟨hs, rfl⟩, by simp [fin, adv, SS.inStart],
      by simp [fin, adv, SS.inStart]⟩
  | close s1 hp1 h =>
    have := inStart_afterStartTag a
    exact ⟨by simp [fin, adv], fun _ => ⟨hs, this⟩, by simp [fin, adv, this], by simp [fin, adv, this]⟩
  | pseudo s1 hp1 he h =>
    exact ⟨by simp [fin, adv], fun _ => ⟨hs, rfl⟩, by simp [fin, adv, SS.inStart],
      by simp [fin, adv, SS.inStart]⟩
  | unknown s1 hp1 h0 h1 h2 h3 =>
    refine ⟨by simp [fin, adv], by simp [fin, adv], fun _ _ => ⟨hs, rfl⟩, fun _ h0 => ?_⟩
    exact absurd (hn2 h0) h2

theorem rest_untilByte (s : Sc) (b : Nat) : ∀ s' : Sc, s'.pos = s.pos + untilByte b (rest c s) →
    (rest c s').head? = some b ∨ rest c s' = [] := by
  intro s' hs'
  have e : rest c s' = (rest c s).drop (untilByte b (rest c s)) := by
    unfold rest at *; rw [hs', List.drop_drop]
  rw [e]
  rcases Nat.lt_or_ge (untilByte b (rest c s)) (rest c s).length with h | h
  · left
    have := untilByte_get h
    simpa using this
  · right
    exact List.drop_eq_nil_of_le h

theorem Step.startFacts {s s' : Sc} (h : Step c s s') (hne : s'.tokenType ≠ .EOS) : StartFacts c s s' := by
  have nn : s.state ≠ .AfterOpeningStartTag → s.state ≠ .WithinTag → ¬ Nameless c s := by
    rintro h1 h2 (h | ⟨h, _⟩)
    · exact h1 h
    · exact h2 h
  cases h with
  | eos h => exact absurd rfl hne
  | content _ h hs hx => exact hx.startFacts hs rfl (by rw [hs]; rfl)
  | endTag _ h hs hx => cases hx <;> constructor <;> simp [fin, adv, hs, SS.inStart]
  | tag _ h hs hx => exact hx.startFacts hs (by rw [hs]; rfl) rfl (fun _ => hs) h
  | afterNameTag _ h hs hw h0 hx =>
    exact hx.startFacts rfl (by rw [hs]; rfl) rfl
      (fun h0 => absurd h0 (nn (by rw [hs]; decide) (by rw [hs]; decide))) h
  | valueTag _ h hs hw hb h0 h1 hx =>
    exact hx.startFacts rfl (by rw [hs]; rfl) rfl
      (fun h0 => absurd h0 (nn (by rw [hs]; decide) (by rw [hs]; decide))) h
  | script q st h hs hp hl hst =>
    rcases hst with ⟨e, _⟩ | ⟨e, _⟩ <;> constructor <;> simp [fin, e, SS.inStart]
  | scriptContent _ h hs hl hx => exact hx.startFacts rfl rfl (by rw [hs]; rfl)
  | styleContent _ h hs hb h0 hx => exact hx.startFacts rfl rfl (by rw [hs]; rfl)
  | startTagName h hs hb h0 =>
    constructor <;> simp [fin, adv, hs, SS.inStart, isBracket]
  | startTagWs h hs hb hn h0 =>
    constructor <;> simp [fin, adv, hs, SS.inStart, isBracket, Nameless]
  | startTagNoName h hs hb hn hw h0 =>
    refine ⟨by simp [fin, adv], by simp [fin, adv], ?_, fun _ _ _ => ⟨.inr ⟨rfl, ?_⟩, by simp [fin, adv]⟩⟩
    · simp [fin, adv, hs, SS.inStart, isBracket]
    · exact rest_untilByte s 62 _ rfl
  | startTagImmediate h hs hb hn hw h0 =>
    constructor <;> simp [fin, adv, hs, SS.inStart]
  | afterNameWs h hs h0 =>
    have := nn (by rw [hs]; decide) (by rw [hs]; decide)
    constructor <;> simp [fin, adv, hs, SS.inStart, isBracket, this]
  | assign h hs hw h0 =>
    have := nn (by rw [hs]; decide) (by rw [hs]; decide)
    constructor <;> simp [fin, adv, hs, SS.inStart, isBracket, this]
  | valueWs h hs h0 =>
    have := nn (by rw [hs]; decide) (by rw [hs]; decide)
    constructor <;> simp [fin, adv, hs, SS.inStart, isBracket, this]
  | valueUnquoted h hs hw hb h0 =>
    have := nn (by rw [hs]; decide) (by rw [hs]; decide)
    constructor <;> simp [fin, adv, hs, SS.inStart, isBracket, this]
  | valueQuoted h hs hw hb h0 q hq h1 =>
    have := nn (by rw [hs]; decide) (by rw [hs]; decide)
    constructor <;> simp [fin, adv, hs, SS.inStart, isBracket, this]
  | _ => rename_i hs _; constructor <;> simp_all [fin, adv, SS.inStart]

theorem StartRun.congr {n m : Node} {e : Nat} {s0 s1 s2 : Sc} {ts : List Tok}
    (h : StartRun c n e s0 ts s1 s2) (h1 : m.start = n.start) (h2 : m.tag = n.tag)
    (h3 : m.attributes = n.attributes) : StartRun c m e s0 ts s1 s2 :=
  ⟨⟨by rw [h1]; exact h.inner.opens, h.inner.state, by rw [h1]; exact h.inner.pos, h.inner.run,
    h.inner.inner, by rw [h2]; exact h.inner.nameless⟩, h.last, h.lt, h.stop, h.type,
    by rw [h2, h3]; exact h.slash, by rw [h3]; exact h.attrs⟩

theorem HasRun.congr {n m : Node} (h : HasRun c n) (h1 : m.start = n.start) (h2 : m.tag = n.tag)
    (h3 : m.attributes = n.attributes) (h4 : m.startTagEnd = n.startTagEnd) : HasRun c m := by
  intro e he
  rw [h4] at he
  obtain ⟨s0, ts, s1, s2, h⟩ := h e he
  exact ⟨s0, ts, s1, s2, h.congr h1 h2 h3⟩

theorem Deep.addChild_run {q n : Node} (hq : Deep (HasRun c) q) (hn : Deep (HasRun c) n) :
    Deep (HasRun c) (q.addChild n) := by
  obtain ⟨h1, h2⟩ := hq
  refine ⟨h1.congr rfl rfl rfl rfl, ?_⟩
  intro d hd
  rcases List.mem_append.1 hd with hd | hd
  · exact h2 d hd
  · rw [List.mem_singleton] at hd; subst hd; exact hn

def AllRun (c : Cfg) (l : List Node) : Prop := ∀ q ∈ l, Deep (HasRun c) q

theorem AllRun.modify {n m : Node} {l : List Node} (h : AllRun c (n :: l)) (hk : m.children = n.children)
    (hm : HasRun c m) : AllRun c (m :: l) := by
  intro q hq
  rcases List.mem_cons.1 hq with rfl | hq
  · obtain ⟨_, h2⟩ := h n (List.mem_cons_self ..)
    exact ⟨hm, by rw [hk]; exact h2⟩
  · exact h q (List.mem_cons_of_mem _ hq)

theorem AllRun.head {n : Node} {l : List Node} (h : AllRun c (n :: l)) : HasRun c n := by
  obtain ⟨h1, _⟩ := h n (List.mem_cons_self ..); exact h1

theorem AllRun.pop {p p' : PState} (hp : p.pop = .ok p') (h : AllRun c (p.cur :: p.parents)) :
    AllRun c (p'.cur :: p'.parents) := by
  unfold PState.pop at hp
  split at hp
  · cases hp
  · rename_i q qs hq
    cases hp
    rw [hq] at h
    intro x hx
    rcases List.mem_cons.1 hx with rfl | hx
    · exact (h q (by simp)).addChild_run (h p.cur (by simp))
    · exact h x (by simp [hx])

theorem AllRun.popUnclosed {k : Nat} {p p' : PState} (h : AllRun c (p.cur :: p.parents))
    (hp : popUnclosed k p = .ok p') : AllRun c (p'.cur :: p'.parents) := by
  induction k generalizing p with
  | zero => cases hp; exact h
  | succ k ih =>
    unfold Html.popUnclosed at hp
    obtain ⟨e, _, hp⟩ := bind_ok hp
    obtain ⟨p1, h1, hp⟩ := bind_ok hp
    refine ih (AllRun.pop h1 ?_) hp
    exact h.modify rfl (h.head.congr rfl rfl rfl rfl)

theorem PInv.slash {p : PState} {s : Sc} (h : PInv c void p s) (hs : s.state.inStart = true)
    (hx : At c.src (s.pos - 1) b!"/>") : p.cur.tag = none ∨ SlashValue c.src p.cur.attributes s.pos := by
  unfold PInv at h
  revert h hs
  cases s.state <;> intro h hs <;> first
    | (cases hs; done)
    | exact .inl h.tag
    | exact h.slash hx
    | exact h.tag.slash hx

theorem tokType (s : Sc) : s.tok.type = s.tokenType := rfl

theorem NoValueNext.snoc {ts : List Tok} {t : Tok} (h : NoValueNext ts) (ht : t.type ≠ .AttributeValue) :
    NoValueNext (ts ++ [t]) := by
  rcases h with h | ⟨mid, t1, post, rfl, h1, h2⟩
  · by_cases hn : t.type = .AttributeName
    · exact .inr ⟨ts, t, [], rfl, h, hn⟩
    · refine .inl fun m hm => ?_
      rcases List.mem_append.1 hm with hm | hm
      · exact h m hm
      · rw [List.mem_singleton] at hm; subst hm; exact ⟨hn, ht⟩
  · exact .inr ⟨mid, t1, post ++ [t], by simp, h1, h2⟩

theorem WrittenBy.snoc {src : Str} {ts : List Tok} {t : Tok} {x : Str × Attr} (h : WrittenBy src ts x)
    (ht : t.type ≠ .AttributeValue) : WrittenBy src (ts ++ [t]) x := by
  obtain ⟨pre, t1, post, rfl, h1, h2, h3, hx, h4⟩ := h
  refine ⟨pre, t1, post ++ [t], by simp, h1, h2, h3, hx, ?_⟩
  rcases h4 with ⟨h4, h5⟩ | ⟨v, w, mid, t2, post2, h4, h5, rfl, h6⟩
  · exact .inl ⟨h4, h5.snoc ht⟩
  · exact .inr ⟨v, w, mid, t2, post2 ++ [t], h4, h5, by simp, h6⟩

theorem PendingTok.snoc {src : Str} {ts : List Tok} {t : Tok} {p p' : PState} (h : PendingTok src ts p) (ht : NotAttr t)
    (h1 : p'.pending = p.pending) (h2 : p'.cur.attributes = p.cur.attributes) : PendingTok src (ts ++ [t]) p' := by
  obtain ⟨a, pre, t1, post, i1, rfl, i2, i3, hx, i4, v, i5, i6⟩ := h
  refine ⟨a, pre, t1, post ++ [t], by rw [h1, i1], by simp, i2, i3, hx, fun m hm => ?_, v, i5, by rw [h2]; exact i6⟩
  rcases List.mem_append.1 hm with hm | hm
  · exact i4 m hm
  · rw [List.mem_singleton] at hm; subst hm; exact ht

/-- The text of a token and its ends. -/
theorem tokenText_stop {s : Sc} {t : Str} (h : tokenText c s = .ok t) :
    s.pos = s.tokenOffset + t.length ∧ At c.src s.tokenOffset t := by
  unfold tokenText at h
  obtain ⟨h1, h2, _, _, h3⟩ := sliceStr_ok h
  have h4 := bytesIn_length (a := s.tokenOffset) h2
  rw [← h3] at h4
  refine ⟨by omega, ?_⟩
  have e : t = (c.src.drop s.tokenOffset).take (s.pos - s.tokenOffset) := by
    rw [h3, ← bytesIn_eq_take]; congr 1; omega
  rw [e]
  exact ⟨(c.src.drop s.tokenOffset).drop (s.pos - s.tokenOffset), (List.take_append_drop _ _).symm⟩

theorem AttrToks.name {p : PState} {s s' : Sc} {ts : List Tok} {t : Str} (i : AttrToks c.src p s ts)
    (ht : s'.tokenType = .AttributeName) (htx : tokenText c s' = .ok t) :
    AttrToks c.src { p with
      pending := some t
      cur := { p.cur with attributes := attrInsert p.cur.attributes t ⟨none, s'.tokenOffset⟩ } } s'
      (ts ++ [s'.tok]) := by
  obtain ⟨h1, _⟩ := tokenText_stop htx
  refine ⟨fun x hx => ?_, fun _ => ?_⟩
  · rcases mem_attrInsert hx with rfl | hx
    · exact ⟨ts, s'.tok, [], rfl, ht, rfl, h1, (text_eq htx).symm, .inl ⟨.inl rfl, .inl (by simp)⟩⟩
    · exact (i.written x hx).snoc (by rw [tokType, ht]; decide)
  · exact ⟨t, ts, s'.tok, [], rfl, rfl, ht, h1, (text_eq htx).symm, by simp, none, .inl rfl, attrGet_insert _ _ _⟩

theorem AttrToks.assign {p : PState} {s s' : Sc} {ts : List Tok} {a : Str} {m : List (Str × Attr)}
    (i : AttrToks c.src p s ts) (ht : s'.tokenType = .DelimiterAssign)
    (hs : s.state = .AfterAttributeName ∨ s.state = .BeforeAttributeValue) (ha : p.pending = some a)
    (hm : attrSetValue p.cur.attributes a [] = .ok m) :
    AttrToks c.src { p with cur := { p.cur with attributes := m } } s' (ts ++ [s'.tok]) := by
  have hna : NotAttr s'.tok := ⟨by rw [tokType, ht]; decide, by rw [tokType, ht]; decide⟩
  obtain ⟨a', pre, t1, post, i1, rfl, i2, i3, hx, i4, v, i5, i6⟩ := i.last hs
  rw [ha] at i1
  cases i1
  rw [attrSetValue_eq, i6] at hm
  cases hm
  have hpost : ∀ m ∈ post ++ [s'.tok], NotAttr m := fun m hm => by
    rcases List.mem_append.1 hm with hm | hm
    · exact i4 m hm
    · rw [List.mem_singleton] at hm; subst hm; exact hna
  refine ⟨fun x hx' => ?_, fun _ => ?_⟩
  · rcases mem_attrInsert hx' with rfl | hx'
    · exact ⟨pre, t1, post ++ [s'.tok], by simp, i2, rfl, i3, hx, .inl ⟨.inr rfl, .inl hpost⟩⟩
    · exact (i.written x hx').snoc hna.2
  · exact ⟨a, pre, t1, post ++ [s'.tok], ha, by simp, i2, i3, hx, hpost, some [], .inr rfl, attrGet_insert _ _ _⟩

theorem mem_attrInsert_ne {m : List (Str × Attr)} {k : Str} {v : Attr} {x : Str × Attr}
    (hn : (m.map (·.1)).Nodup) (h : x ∈ attrInsert m k v) : x = (k, v) ∨ (x ∈ m ∧ x.1 ≠ k) := by
  induction m with
  | nil => simp [attrInsert] at h; exact .inl h
  | cons y m ih =>
    rw [List.map_cons, List.nodup_cons] at hn
    simp only [attrInsert] at h
    split at h
    · rename_i hk
      rcases List.mem_cons.1 h with h | h
      · exact .inl h
      · exact .inr ⟨List.mem_cons_of_mem _ h, fun he => hn.1 (by
          rw [hk, ← he]; exact List.mem_map_of_mem h)⟩
    · rename_i hk
      rcases List.mem_cons.1 h with h | h
      · exact .inr ⟨h ▸ List.mem_cons_self, by rw [h]; exact hk⟩
      · rcases ih hn.2 h with h | h
        · exact .inl h
        · exact .inr ⟨List.mem_cons_of_mem _ h.1, h.2⟩

/-- What comes last of several things is determined. -/
theorem last_unique {ts pre1 pre2 post1 post2 : List Tok} {t1 t2 : Tok} {P : Tok → Prop}
    (h1 : ts = pre1 ++ t1 :: post1) (h2 : ts = pre2 ++ t2 :: post2) (h3 : ¬ P t1) (h4 : ¬ P t2)
    (h5 : ∀ m ∈ post1, P m) (h6 : ∀ m ∈ post2, P m) : t1 = t2 := by
  rw [h1] at h2
  rcases List.append_eq_append_iff.1 h2 with ⟨l, e1, e2⟩ | ⟨l, e1, e2⟩
  · cases l with
    | nil => simp at e2; exact e2.1
    | cons a l =>
      simp at e2
      exact absurd (h5 t2 (by rw [e2.2]; simp)) h4
  · cases l with
    | nil => simp at e2; exact e2.1.symm
    | cons a l =>
      simp at e2
      exact absurd (h6 t1 (by rw [e2.2]; simp)) h3

theorem AttrToks.value {p : PState} {s s' : Sc} {ts : List Tok} {a t : Str} {m : List (Str × Attr)}
    (i : AttrToks c.src p s ts) (ht : s'.tokenType = .AttributeValue) (htx : tokenText c s' = .ok t)
    (hoff : s'.tokenOffset = s.pos) (hlt : s.pos < s'.pos)
    (hs : s.state = .BeforeAttributeValue ∧ s'.state = .WithinTag)
    (hp : InVal c void p s.pos) (ha : p.pending = some a)
    (hm : attrSetValue p.cur.attributes a t = .ok m) :
    AttrToks c.src { p with cur := { p.cur with attributes := m }, pending := none } s' (ts ++ [s'.tok]) := by
  obtain ⟨k1, k2⟩ := tokenText_stop htx
  obtain ⟨a', pre, t1, post, i1, rfl, i2, i3, hx, i4, v, i5, i6⟩ := i.last (.inr hs.1)
  rw [ha] at i1
  cases i1
  obtain ⟨a', off, w, p1, p2, p3, p4, p5, p6, p7⟩ := hp.pend
  rw [ha] at p1
  cases p1
  rw [i6] at p2
  cases p2
  rw [attrSetValue_eq, i6] at hm
  cases hm
  refine ⟨fun x hx' => ?_, fun hs' => ?_⟩
  · rcases mem_attrInsert_ne hp.tag.core.nodup hx' with rfl | ⟨hx', hk⟩
    · refine ⟨pre, t1, post ++ [s'.tok], by simp, i2, rfl, i3, hx, .inr ⟨t, w, post, s'.tok, [], rfl, ?_, rfl, i4, ht,
        ?_, k1, p5, ?_⟩⟩
      · rintro rfl; simp at k1; omega
      · show s'.tokenOffset = _; rw [hoff]; exact p7.symm
      · exact p6.append (by rw [p7, ← hoff]; exact k2)
    · obtain ⟨pre', t1', post', j1, j2, j3, j4, jx, j5⟩ := i.written x hx'
      refine ⟨pre', t1', post' ++ [s'.tok], by rw [j1]; simp, j2, j3, j4, jx, ?_⟩
      rcases j5 with ⟨j5, j6 | ⟨mid, t2, post2, j6, j7, j8⟩⟩ | ⟨v, w, mid, t2, post2, j5, j6, j7, j8⟩
      · have := last_unique (P := NotAttr) j1 rfl (fun h => h.1 j2) (fun h => h.1 i2) j6 i4
        rw [this, hx] at jx
        exact absurd jx.symm hk
      · exact .inl ⟨j5, .inr ⟨mid, t2, post2 ++ [s'.tok], by rw [j6]; simp, j7, j8⟩⟩
      · exact .inr ⟨v, w, mid, t2, post2 ++ [s'.tok], j5, j6, by rw [j7]; simp, j8⟩
  · rw [hs.2] at hs'; rcases hs' with h | h <;> cases h

theorem RunInv.step {p p' : PState} {s s' : Sc} (hi : RunInv c p s) (hp : PInv c void p s)
    (hsc : scan c s = .ok s') (hne : s'.tokenType ≠ .EOS) (h : parseStep c void p s' = .ok p') :
    RunInv c p' s' := by
  have hst := scan_step hsc
  have hf := hst.startFacts hne
  have hoff := hst.offset_eq
  -- reading on inside a start tag
  have on : s'.tokenType ≠ .StartTagOpen → p'.cur.start = p.cur.start →
      (p'.cur.startTagEnd = p.cur.startTagEnd) →
      (p'.cur.tag = none → p.cur.tag = none ∧ s'.tokenType ≠ .StartTag) →
      (s.state.inStart = true → ∀ ts, AttrToks c.src p s ts → AttrToks c.src p' s' (ts ++ [s'.tok])) →
      s'.state.inStart = true →
      p'.cur.startTagEnd = none ∧ (p'.cur.tag = none → Nameless c s') ∧
      ∃ s0 ts, OpenRun c p'.cur s0 ts s' ∧ AttrToks c.src p' s' ts := by
    intro h1 h2 h3 h4 hat h5
    obtain ⟨h6, h7⟩ := hf.stay h5 h1
    obtain ⟨i1, i2, s0, ts, i3, i4⟩ := hi.opn h6
    refine ⟨by rw [h3, i1], fun ht => ?_, s0, ts ++ [s'.tok], ?_, hat h6 ts i4⟩
    · obtain ⟨h8, h9⟩ := h4 ht
      exact (hf.nameless h5 (i2 h8) h9).1
    · refine ⟨by rw [h2]; exact i3.opens, i3.state, by rw [h2]; exact i3.pos, i3.run.snoc hsc hne, ?_, ?_⟩
      · intro t ht
        rcases List.mem_append.1 ht with ht | ht
        · exact i3.inner t ht
        · rw [List.mem_singleton] at ht; subst ht; exact h7
      · intro hn t ht
        obtain ⟨h8, h9⟩ := h4 hn
        rcases List.mem_append.1 ht with ht | ht
        · exact i3.nameless h8 t ht
        · rw [List.mem_singleton] at ht; subst ht; exact (hf.nameless h5 (i2 h8) h9).2
  have nodes : AllRun c (p.cur :: p.parents) := hi.nodes
  have keep : NotAttr s'.tok → s'.tokenType ≠ .AttributeName → p'.cur.attributes = p.cur.attributes →
      p'.pending = p.pending →
      (s.state.inStart = true → ∀ ts, AttrToks c.src p s ts → AttrToks c.src p' s' (ts ++ [s'.tok])) := by
    intro h1 h2 h3 h4 _ ts i
    refine ⟨fun x hx => (i.written x (by rw [← h3]; exact hx)).snoc h1.2, fun hs => ?_⟩
    rcases (hst.infoFacts hne).f4 hs with h5 | ⟨_, h5⟩
    · exact absurd h5 h2
    · exact (i.last (.inl h5)).snoc h1 h4 (by rw [h3])
  have vac : ∀ n : Node, n.startTagEnd = none → HasRun c n := fun n hn e he => by rw [hn] at he; cases he
  unfold parseStep at h
  split at h
  · -- StartTagOpen
    rename_i ht
    cases h
    obtain ⟨h1, h2, h3⟩ := hf.enter ht
    refine ⟨?_, fun _ => ⟨rfl, fun _ => .inl h2, s', [], ⟨?_, h2, ?_, .nil _, by simp, by simp⟩,
      by simp [Node.new], by rw [h2]; simp⟩⟩
    · intro q hq
      rcases List.mem_cons.1 hq with rfl | hq
      · exact ⟨vac _ rfl, by simp [Node.new]⟩
      · exact nodes q hq
    · simp only [Node.new, hoff]; exact h1
    · simp only [Node.new, hoff]; exact h3
  · -- StartTag
    rename_i ht
    obtain ⟨t, h1, h⟩ := bind_ok h
    cases h
    have hs := hf.stay
    have hin := (hst.infoFacts hne).f1 (.inl ht)
    refine ⟨nodes.modify rfl (vac _ (hi.opn hin).1), on (by rw [ht]; decide) rfl rfl (by simp)
      (keep ⟨by rw [tokType, ht]; decide, by rw [tokType, ht]; decide⟩ (by rw [ht]; decide) rfl rfl)⟩
  · -- StartTagClose
    rename_i ht
    obtain ⟨hin, hout⟩ := hf.close (.inl ht)
    obtain ⟨i1, i2, s0, ts, i3, i4⟩ := hi.opn hin
    have no : s'.state.inStart = true → False := fun h => by rw [hout] at h; cases h
    split at h
    · cases h; exact ⟨nodes, fun h => (no h).elim⟩
    · simp only at h
      split at h
      · rename_i hl
        have hlt : s.pos < s'.pos := by
          unfold Sc.tokenLength at hl; rw [hoff] at hl; omega
        have hrun : ∀ n : Node, n.start = p.cur.start → n.tag = p.cur.tag →
            n.attributes = p.cur.attributes → n.startTagEnd = some s'.tokenEnd → HasRun c n := by
          intro n n1 n2 n3 n4 e he
          rw [n4] at he
          cases he
          refine ⟨s0, ts, s, s', ⟨by rw [n1]; exact i3.opens, i3.state, by rw [n1]; exact i3.pos, i3.run,
            i3.inner, by rw [n2]; exact i3.nameless⟩, hsc, hlt, rfl, .inl ht, ?_, by rw [n3]; exact i4.written⟩
          intro hsl
          refine .inr ?_
          rw [n2, n3]
          have he : s'.pos = s.pos + 1 := by
            rcases hst.textOK hne with hx
            unfold TextOK at hx
            simp only [show s'.tok.type = .StartTagClose from ht] at hx
            have e2 : text c.src s'.tok = bytesIn c.src s.pos s'.pos := by
              show bytesIn c.src s'.tokenOffset s'.pos = _; rw [hoff]
            rw [e2] at hx
            have hle : s'.pos ≤ c.src.length := (hst.pos_le (by
              rcases Nat.lt_or_ge c.src.length s.pos with h | h
              · exact absurd (hst.eos_iff.2 (by omega)) hne
              · exact h)).2
            have hlen : (bytesIn c.src s.pos s'.pos).length = s'.pos - s.pos := by
              simp [bytesIn]; omega
            rcases hx with hx | ⟨hx, _⟩ <;> rw [hx] at hlen <;> simp at hlen <;> omega
          have e3 : s'.tokenEnd - 2 = s.pos - 1 := by
            show s'.pos - 2 = _; omega
          have e4 : s'.tokenEnd - 1 = s.pos := by
            show s'.pos - 1 = _; omega
          rw [e3] at hsl
          rw [e4]
          exact hp.slash hin hsl
        split at h
        · exact ⟨AllRun.pop h (nodes.modify rfl (hrun _ rfl rfl rfl rfl)), fun h => (no h).elim⟩
        · cases h
          exact ⟨nodes.modify rfl (hrun _ rfl rfl rfl rfl), fun h => (no h).elim⟩
      · exact ⟨AllRun.pop h (nodes.modify rfl (vac _ i1)), fun h => (no h).elim⟩
  · -- StartTagSelfClose
    rename_i ht
    obtain ⟨hin, hout⟩ := hf.close (.inr ht)
    obtain ⟨i1, i2, s0, ts, i3, i4⟩ := hi.opn hin
    have no : s'.state.inStart = true → False := fun h => by rw [hout] at h; cases h
    split at h
    · cases h; exact ⟨nodes, fun h => (no h).elim⟩
    · refine ⟨AllRun.pop h (nodes.modify rfl ?_), fun h => (no h).elim⟩
      intro e he
      cases he
      have hlt : s.pos < s'.pos := by
        have hx := hst.textOK hne
        unfold TextOK at hx
        simp only [show s'.tok.type = .StartTagSelfClose from ht] at hx
        have e2 : text c.src s'.tok = bytesIn c.src s.pos s'.pos := by
          show bytesIn c.src s'.tokenOffset s'.pos = _; rw [hoff]
        rw [e2] at hx
        rcases Nat.lt_or_ge s.pos s'.pos with h | h
        · exact h
        · rw [bytesIn, List.drop_eq_nil_of_le (by simp; omega)] at hx; cases hx
      exact ⟨s0, ts, s, s', ⟨i3.opens, i3.state, i3.pos, i3.run, i3.inner, i3.nameless⟩, hsc, hlt, rfl,
        .inr ht, fun _ => .inl ht, i4.written⟩
  · -- EndTagOpen
    rename_i ht
    cases h
    exact ⟨nodes, on (by rw [ht]; decide) rfl rfl (fun h => ⟨h, by rw [ht]; decide⟩)
      (keep ⟨by rw [tokType, ht]; decide, by rw [tokType, ht]; decide⟩ (by rw [ht]; decide) rfl rfl)⟩
  · -- EndTag
    rename_i ht
    obtain ⟨t, _, h⟩ := bind_ok h
    cases h
    exact ⟨nodes, on (by rw [ht]; decide) rfl rfl (fun h => ⟨h, by rw [ht]; decide⟩)
      (keep ⟨by rw [tokType, ht]; decide, by rw [tokType, ht]; decide⟩ (by rw [ht]; decide) rfl rfl)⟩
  · -- EndTagClose
    rename_i ht
    simp only at h
    split at h
    · obtain ⟨p1, h1, h⟩ := bind_ok h
      have hu := AllRun.popUnclosed nodes h1
      refine ⟨AllRun.pop h (hu.modify rfl (hu.head.congr rfl rfl rfl rfl)), ?_⟩
      intro h5
      obtain ⟨_, h7⟩ := hf.stay h5 (by rw [ht]; decide)
      rw [ht] at h7; cases h7
    · cases h
      exact ⟨nodes, on (by rw [ht]; decide) rfl rfl (fun h => ⟨h, by rw [ht]; decide⟩)
      (keep ⟨by rw [tokType, ht]; decide, by rw [tokType, ht]; decide⟩ (by rw [ht]; decide) rfl rfl)⟩
  · -- AttributeName
    rename_i ht
    obtain ⟨t, htx, h⟩ := bind_ok h
    cases h
    have hin := (hst.infoFacts hne).f1 (.inr ht)
    exact ⟨nodes.modify rfl (vac _ (hi.opn hin).1),
      on (by rw [ht]; decide) rfl rfl (fun h => ⟨h, by rw [ht]; decide⟩) (fun _ ts i => i.name ht htx)⟩
  · -- DelimiterAssign
    rename_i ht
    have hin : s.state.inStart = true := by rw [(hst.infoFacts hne).f2 ht]; rfl
    split at h
    · obtain ⟨m, hm, h⟩ := bind_ok h
      cases h
      exact ⟨nodes.modify rfl (vac _ (hi.opn hin).1),
        on (by rw [ht]; decide) rfl rfl (fun h => ⟨h, by rw [ht]; decide⟩)
          (fun _ ts i => i.assign ht (.inl ((hst.infoFacts hne).f2 ht)) (by assumption) hm)⟩
    · cases h
      exact ⟨nodes, on (by rw [ht]; decide) rfl rfl (fun h => ⟨h, by rw [ht]; decide⟩)
        (keep ⟨by rw [tokType, ht]; decide, by rw [tokType, ht]; decide⟩ (by rw [ht]; decide) rfl rfl)⟩
  · -- AttributeValue
    rename_i ht
    have hin : s.state.inStart = true := by rw [((hst.infoFacts hne).f3 ht).1]; rfl
    obtain ⟨t, htx, h⟩ := bind_ok h
    have hval := (hst.infoFacts hne).f3 ht
    have hlt : s.pos < s'.pos := by
      have hle : s.pos ≤ c.src.length := by
        rcases Nat.lt_or_ge c.src.length s.pos with h | h
        · exact absurd (hst.eos_iff.2 (by omega)) hne
        · exact h
      have h1 := (hst.pos_le hle).1
      rcases Nat.lt_or_ge s.pos s'.pos with h | h
      · exact h
      · have := hst.not_notAdvanced
        unfold notAdvanced at this
        rw [ht, show s.pos = s'.pos by omega] at this
        simp at this
    unfold PInv at hp
    simp only [hval.1] at hp
    split at h
    · obtain ⟨m, hm, h⟩ := bind_ok h
      cases h
      exact ⟨nodes.modify rfl (vac _ (hi.opn hin).1),
        on (by rw [ht]; decide) rfl rfl (fun h => ⟨h, by rw [ht]; decide⟩)
          (fun _ ts i => i.value ht htx hst.offset_eq hlt hval hp (by assumption) hm)⟩
    · rename_i hx
      obtain ⟨_, _, _, h9, _⟩ := hp.pend
      rw [hx] at h9; cases h9
  · rename_i h1 h2 h3 h4 h5 h6 h7 h8 h9 h10
    cases h
    exact ⟨nodes, on h1 rfl rfl (fun h => ⟨h, h2⟩) (keep ⟨h8, h10⟩ h8 rfl rfl)⟩

theorem parseLoop_runs {f : Nat} {p p' : PState} {s : Sc} (hi : RunInv c p s) (hp : PInv c void p s)
    (h : parseLoop c void f p s = .ok p') : AllRun c (p'.cur :: p'.parents) := by
  induction f generalizing p s with
  | zero => cases h
  | succ f ih =>
    unfold parseLoop at h
    obtain ⟨s1, h1, h⟩ := bind_ok h
    have hst := scan_step h1
    split at h
    · cases h; exact hi.nodes
    · rename_i hne
      obtain ⟨p1, h2, h⟩ := bind_ok h
      obtain ⟨p2, h4, h5⟩ := hp.step hst hne (fun hn => by
        obtain ⟨t, ht⟩ := parseStep_text h2 hn
        exact tokenText_eq ht hst.offset_eq)
      rw [h2] at h4
      cases h4
      exact ih (hi.step hp h1 hne h2) h5 h

theorem finishAll_runs (len : Nat) (n : Node) (ps : List Node) (h : AllRun c (n :: ps)) :
    Deep (HasRun c) (finishAll len n ps) := by
  induction ps generalizing n with
  | nil => exact h n (by simp)
  | cons q qs ih =>
    rw [finishAll]
    refine ih _ (fun x hx => ?_)
    have hm : AllRun c ({ n with stop := len, closed := false } :: q :: qs) :=
      h.modify rfl (h.head.congr rfl rfl rfl rfl)
    rcases List.mem_cons.1 hx with rfl | hx
    · exact (h q (by simp)).addChild_run (hm _ (by simp))
    · exact h x (by simp [hx])

/-- The start tag of every element of a parsed document, with the scanner states around its
tokens. -/
theorem parse_start {u : Uni} {cs : Bool} {src : Str} {roots : List Node} {n : Node} {e : Nat}
    (h : parse u cs void src = .ok roots) (hn : InForest roots n) (he : n.startTagEnd = some e) :
    ∃ s0 ts s1 s2, StartRun (parserCfg u cs src) n e s0 ts s1 s2 := by
  unfold parse at h
  obtain ⟨p, h1, h⟩ := bind_ok h
  cases h
  have hr : AllRun (parserCfg u cs src) (p.cur :: p.parents) := by
    refine parseLoop_runs ?_ PInv.init h1
    refine ⟨?_, by simp [Sc.new, SS.inStart]⟩
    intro q hq
    simp only [PState.init, List.mem_singleton] at hq
    subst hq
    exact ⟨fun e he => by simp [Node.new] at he, by simp [Node.new]⟩
  obtain ⟨_, h2⟩ := finishAll_runs src.length p.cur p.parents hr
  obtain ⟨h3, _⟩ := deep_forest h2 hn
  exact h3 e he

end Html
