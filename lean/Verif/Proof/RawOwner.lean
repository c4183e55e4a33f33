import Verif.Proof.RawText
import Verif.Proof.Panics
import Verif.Proof.StartTag

/-!
# Which elements have raw content (for C73)
-/

namespace Html
open Spec

variable {c : Cfg}

/-- In a start tag. -/
def inTagState : SS → Bool
  | .AfterOpeningStartTag | .WithinTag | .AfterAttributeName | .BeforeAttributeValue => true
  | _ => false

/-- What the tokens of the tag so far say about the hidden fields. -/
structure TagHist (c : Cfg) (tag : List Tok) (s : Sc) : Prop where
  opening : s.state = .AfterOpeningStartTag → ∀ t ∈ tag, t.type = .Whitespace
  name : s.state ≠ .AfterOpeningStartTag → s.lastTag = tagNameIn c.uni c.caseSensitive c.src tag
  given : s.state ≠ .AfterOpeningStartTag → s.pos < c.src.length →
    s.lastType.isSome = typeGiven c.uni c.caseSensitive c.src tag
  attr : (s.state = .AfterAttributeName ∨ s.state = .BeforeAttributeValue) →
    ((tag.foldl (typeStep c.uni c.caseSensitive c.src) (false, false)).1 = true ↔ s.lastAttr = some b!"type")

theorem tagNameIn_concat {tag : List Tok} {t : Tok} (h : t.type ≠ .StartTag) :
    tagNameIn c.uni c.caseSensitive c.src (tag ++ [t]) = tagNameIn c.uni c.caseSensitive c.src tag := by
  unfold tagNameIn
  rw [List.find?_append]
  simp [h]

theorem typeFold_concat {tag : List Tok} {t : Tok} {s : Bool × Bool} :
    (tag ++ [t]).foldl (typeStep c.uni c.caseSensitive c.src) s =
      typeStep c.uni c.caseSensitive c.src (tag.foldl (typeStep c.uni c.caseSensitive c.src) s) t := by
  rw [List.foldl_append]; rfl

theorem typeStep_other {t : Tok} {s : Bool × Bool} (h1 : t.type ≠ .AttributeName) (h2 : t.type ≠ .AttributeValue) :
    typeStep c.uni c.caseSensitive c.src s t = s := by
  unfold typeStep
  split <;> simp_all

theorem typeFold_ws {tag : List Tok} (h : ∀ t ∈ tag, t.type = .Whitespace) :
    tag.foldl (typeStep c.uni c.caseSensitive c.src) (false, false) = (false, false) := by
  induction tag with
  | nil => rfl
  | cons t tag ih =>
    rw [List.foldl_cons, typeStep_other (by rw [h t (by simp)]; simp) (by rw [h t (by simp)]; simp)]
    exact ih (fun x hx => h x (by simp [hx]))

theorem tagNameIn_ws {tag : List Tok} (h : ∀ t ∈ tag, t.type = .Whitespace) :
    tagNameIn c.uni c.caseSensitive c.src tag = none := by
  unfold tagNameIn
  rw [List.find?_eq_none.2]
  · rfl
  · intro t ht; simp [h t ht]

/-- A token that says nothing new. -/
theorem TagHist.idle {tag : List Tok} {s s' : Sc} {t : Tok} (h : TagHist c tag s) (hs : s.state ≠ .AfterOpeningStartTag)
    (ht : t.type ≠ .StartTag) (h1 : t.type ≠ .AttributeName) (h2 : t.type ≠ .AttributeValue)
    (e1 : s'.lastTag = s.lastTag) (e2 : s'.lastType = s.lastType) (hp : s.pos < c.src.length)
    (hs' : s'.state ≠ .AfterOpeningStartTag)
    (ha : (s'.state = .AfterAttributeName ∨ s'.state = .BeforeAttributeValue) →
      (s.state = .AfterAttributeName ∨ s.state = .BeforeAttributeValue) ∧ s'.lastAttr = s.lastAttr) :
    TagHist c (tag ++ [t]) s' := by
  refine ⟨fun h => absurd h hs', fun _ => ?_, fun _ _ => ?_, fun hst => ?_⟩
  · rw [tagNameIn_concat ht, e1]; exact h.name hs
  · unfold typeGiven
    rw [typeFold_concat, typeStep_other h1 h2, e2]
    exact h.given hs hp
  · rw [typeFold_concat, typeStep_other h1 h2, (ha hst).2]
    exact h.attr (ha hst).1

theorem tagPre_fields {s s1 : Sc} (h : TagPre c s s1) :
    s1.lastTag = s.lastTag ∧ s1.lastType = s.lastType ∧ s1.state = s.state := by
  cases h <;> exact ⟨rfl, rfl, rfl⟩

theorem tok_text {s s' : Sc} (h : Step c s s') : text c.src s'.tok = bytesIn c.src s.pos s'.pos := by
  unfold text bytesIn
  rw [show s'.tok.stop = s'.pos from rfl, show s'.tok.offset = s.pos from h.offset_eq]

theorem StepTag.tagHist {tag : List Tok} {s s0 s' : Sc} (hx : StepTag c s0 s') (hstep : Step c s s')
    (hh : TagHist c tag s) (hs : s.state ≠ .AfterOpeningStartTag) (hp : s.pos < c.src.length)
    (e0 : s0.state = .WithinTag) (e1 : s0.lastTag = s.lastTag) (e2 : s0.lastType = s.lastType) (e3 : s0.pos = s.pos)
    (hin : inTagState s'.state = true) : TagHist c (tag ++ [s'.tok]) s' := by
  have htext := tok_text hstep
  cases hx with
  | ws h =>
    refine hh.idle hs ?_ ?_ ?_ e1 e2 hp ?_ ?_ <;> simp [fin, adv, Sc.tok, e0]
  | attrName h1 hw hb h =>
    refine ⟨fun h => by simp [fin] at h, fun _ => ?_, fun _ _ => ?_, fun _ => ?_⟩
    · rw [tagNameIn_concat (by simp [fin, Sc.tok])]
      exact e1.trans (hh.name hs)
    · unfold typeGiven
      rw [typeFold_concat]
      have := hh.given hs hp
      unfold typeGiven at this
      refine Eq.trans (congrArg Option.isSome e2) ?_
      rw [this]
      rfl
    · rw [typeFold_concat]
      unfold typeStep
      rw [show (fin _ _ _ _ : Sc).tok.type = .AttributeName from rfl]
      simp only
      rw [htext]
      simp only [fin, adv, comparedName, rest, e3, bytesIn_eq_take]
      simp
  | selfClose s1 h1 h => simp [fin, inTagState] at hin
  | close s1 h1 h =>
    exfalso
    simp only [fin, adv] at hin
    unfold afterStartTag at hin
    split at hin
    · split at hin <;> simp [inTagState] at hin
    · split at hin <;> simp [inTagState] at hin
  | pseudo s1 h1 he h => simp [fin, inTagState] at hin
  | unknown s1 h1 h0 h2 h3 h4 =>
    obtain ⟨k1, k2, k3⟩ := tagPre_fields h1
    refine hh.idle hs ?_ ?_ ?_ (k1.trans e1) (k2.trans e2) hp ?_ ?_ <;> simp [fin, adv, Sc.tok, k3, e0]

theorem unquoted_type {s : Sc} (hp : s.pos < c.src.length) (h0 : 0 < unquotedLen (rest c s)) :
    (nonEmpty (bytesIn c.src s.pos (s.pos + unquotedFullLen (rest c s)))).isSome = true ∧
    bytesIn c.src s.pos (s.pos + unquotedFullLen (rest c s)) ≠ b!"\"\"" ∧
    bytesIn c.src s.pos (s.pos + unquotedFullLen (rest c s)) ≠ b!"''" := by
  have h1 := unquotedFullLen_ge (rest c s)
  have h2 := unquotedFullLen_le (rest c s)
  have hl : (bytesIn c.src s.pos (s.pos + unquotedFullLen (rest c s))).length = unquotedFullLen (rest c s) := by
    rw [bytesIn_length (by rw [rest_length] at h2; omega)]; omega
  have hh : ∀ q v, (q = 39 ∨ q = 34) → bytesIn c.src s.pos (s.pos + unquotedFullLen (rest c s)) = q :: v → False := by
    intro q v hq he
    rw [bytesIn_eq_take] at he
    have : ∃ v', rest c s = q :: v' := by
      unfold rest at he ⊢
      cases hr : c.src.drop s.pos with
      | nil => rw [hr] at he; simp at he
      | cons a v' =>
        rw [hr] at he
        cases hk : unquotedFullLen (a :: v') with
        | zero => rw [hk] at he; simp at he
        | succ k => rw [hk] at he; simp at he; exact ⟨v', by rw [he.1]⟩
    obtain ⟨v', hv⟩ := this
    rw [hv, unquotedLen_quote hq] at h0
    omega
  refine ⟨?_, fun h => hh _ _ (.inr rfl) h, fun h => hh _ _ (.inl rfl) h⟩
  unfold nonEmpty
  rw [if_pos (by omega)]; rfl

theorem quoted_type {s : Sc} {q : Nat} (hq : q = 39 ∨ q = 34) (h1 : (rest c s).head? = some q)
    (hlt : s.pos + quotedLen q (rest c s) < c.src.length) :
    (nonEmpty (quotedType c s.pos (s.pos + quotedLen q (rest c s)))).isSome =
      decide (bytesIn c.src s.pos (s.pos + quotedLen q (rest c s)) ≠ b!"\"\"" ∧
        bytesIn c.src s.pos (s.pos + quotedLen q (rest c s)) ≠ b!"''") := by
  obtain ⟨r, hr⟩ := head_cons h1
  have hrl := rest_length c s
  have hbt : ∀ n, bytesIn c.src s.pos (s.pos + n) = (q :: r).take n := by
    intro n; rw [bytesIn_eq_take, ← hr]; rfl
  have hlen : (q :: r).length = c.src.length - s.pos := by rw [← hr]; exact hrl
  have hu := untilByte_le q r
  have hql : quotedLen q (rest c s) = 2 + untilByte q r ∧ 1 + untilByte q r < (q :: r).length := by
    rw [hr] at hlt ⊢
    unfold quotedLen at hlt ⊢
    simp only [List.drop_succ_cons, List.drop_zero] at hlt ⊢
    split
    · rename_i h; exact ⟨rfl, h⟩
    · rename_i h
      rw [if_neg h] at hlt
      omega
  rw [hql.1, hbt]
  have hqt : (quotedType c s.pos (s.pos + (2 + untilByte q r))).length = untilByte q r := by
    unfold quotedType
    rw [if_neg (by omega), bytesIn_length (by omega)]
    omega
  have hg := untilByte_get (c := q) (s := r) (by simp at hql; omega)
  by_cases h0 : untilByte q r = 0
  · rw [h0] at hg
    cases r with
    | nil => simp at hg
    | cons b r =>
      simp at hg
      subst hg
      have : nonEmpty (quotedType c s.pos (s.pos + (2 + untilByte b (b :: r)))) = none := by
        unfold nonEmpty; rw [if_neg (by omega)]
      rw [this, h0]
      simp
      rcases hq with rfl | rfl <;> simp
  · have : (nonEmpty (quotedType c s.pos (s.pos + (2 + untilByte q r)))).isSome = true := by
      unfold nonEmpty; rw [if_pos (by omega)]; rfl
    rw [this]
    symm
    rw [decide_eq_true_iff]
    have hl3 : ((q :: r).take (2 + untilByte q r)).length = 2 + untilByte q r := by simp at hql ⊢; omega
    constructor
    · intro h; rw [h] at hl3; simp at hl3; omega
    · intro h; rw [h] at hl3; simp at hl3; omega

theorem TagHist.value {tag : List Tok} {s s' : Sc} {v : Str} (hh : TagHist c tag s) (hstep : Step c s s')
    (hs : s.state = .BeforeAttributeValue) (hp : s.pos < c.src.length) (ht : s'.tokenType = .AttributeValue)
    (hst : s'.state = .WithinTag) (e1 : s'.lastTag = s.lastTag) (e2 : s'.lastType = typeAfter s v)
    (hv : s'.pos < c.src.length → (nonEmpty v).isSome =
      decide (bytesIn c.src s.pos s'.pos ≠ b!"\"\"" ∧ bytesIn c.src s.pos s'.pos ≠ b!"''")) :
    TagHist c (tag ++ [s'.tok]) s' := by
  have htext := tok_text hstep
  refine ⟨fun h => (by rw [hst] at h; exact absurd h (by simp)), fun _ => ?_, fun _ hlt => ?_, fun h => by simp [hst] at h⟩
  · rw [tagNameIn_concat (by rw [show s'.tok.type = .AttributeValue from ht]; simp), e1]
    exact hh.name (by rw [hs]; simp)
  · have ha := hh.attr (.inr hs)
    have hg := hh.given (by rw [hs]; simp) hp
    unfold typeGiven at hg ⊢
    rw [typeFold_concat, e2]
    generalize tag.foldl (typeStep c.uni c.caseSensitive c.src) (false, false) = f at ha hg ⊢
    unfold typeStep typeAfter
    rw [show s'.tok.type = .AttributeValue from ht]
    simp only
    by_cases ht : s.lastAttr = some b!"type"
    · rw [if_pos ht, if_pos (ha.2 ht), htext]
      exact hv hlt
    · rw [if_neg ht, if_neg (fun h => ht (ha.1 h))]
      exact hg

theorem Step.tagHist {tag : List Tok} {s s' : Sc} (h : Step c s s') (hin : inTagState s.state = true)
    (hh : TagHist c tag s) (hin' : inTagState s'.state = true) (hp : s.pos < c.src.length) :
    TagHist c (tag ++ [s'.tok]) s' := by
  have hstep := h
  have htext := tok_text hstep
  cases h with
  | startTagName h hs hb h0 =>
    have hws := hh.opening hs
    refine ⟨fun h => by simp [fin] at h, fun _ => ?_, fun _ _ => ?_, fun h => by simp [fin] at h⟩
    · unfold tagNameIn
      rw [List.find?_append, List.find?_eq_none.2 (fun t ht => by simp [hws t ht])]
      simp only [Option.none_or]
      rw [List.find?_cons_of_pos (by rfl)]
      simp only [Option.map_some, htext, comparedName]
      simp only [fin, adv, bytesIn_eq_take]
      rfl
    · unfold typeGiven
      rw [typeFold_concat, typeStep_other (by simp [fin, Sc.tok]) (by simp [fin, Sc.tok]), typeFold_ws hws]
      rfl
  | startTagWs h hs hb hn h0 =>
    have hws := hh.opening hs
    refine ⟨fun _ t ht => ?_, fun h => absurd (by simpa [fin, adv] using hs) h, fun h => absurd (by simpa [fin, adv] using hs) h,
      fun h => by simp [fin, adv, hs] at h⟩
    rcases List.mem_append.1 ht with ht | ht
    · exact hws t ht
    · rw [List.mem_singleton.1 ht]; rfl
  | startTagNoName h hs hb hn hw h0 =>
    have hws := hh.opening hs
    refine ⟨fun h => by simp [fin] at h, fun _ => ?_, fun _ _ => ?_, fun h => by simp [fin] at h⟩
    · rw [tagNameIn_concat (by simp [fin, Sc.tok]), tagNameIn_ws hws]; rfl
    · unfold typeGiven
      rw [typeFold_concat, typeStep_other (by simp [fin, Sc.tok]) (by simp [fin, Sc.tok]), typeFold_ws hws]
      rfl
  | tag _ h hs hx => exact hx.tagHist hstep hh (by rw [hs]; simp) hp hs rfl rfl rfl hin'
  | afterNameWs h hs h0 =>
    refine hh.idle (by rw [hs]; simp) ?_ ?_ ?_ rfl rfl hp ?_ ?_ <;> simp [fin, adv, Sc.tok, hs]
  | assign h hs hw h0 =>
    refine hh.idle (by rw [hs]; simp) ?_ ?_ ?_ rfl rfl hp ?_ ?_ <;> simp [fin, adv, Sc.tok, hs]
  | afterNameTag _ h hs hw h0 hx => exact hx.tagHist hstep hh (by rw [hs]; simp) hp rfl rfl rfl rfl hin'
  | valueWs h hs h0 =>
    refine hh.idle (by rw [hs]; simp) ?_ ?_ ?_ rfl rfl hp ?_ ?_ <;> simp [fin, adv, Sc.tok]
  | valueUnquoted h hs hw hb h0 =>
    refine hh.value hstep hs hp rfl rfl rfl rfl (fun _ => ?_)
    obtain ⟨k1, k2, k3⟩ := unquoted_type hp h0
    rw [k1]
    symm
    rw [decide_eq_true_iff]
    exact ⟨k2, k3⟩
  | valueQuoted h hs hw hb h0 q hq h1 =>
    exact hh.value hstep hs hp rfl rfl rfl rfl (fun hlt => quoted_type hq h1 hlt)
  | valueTag _ h hs hw hb h0 h1 hx => exact hx.tagHist hstep hh (by rw [hs]; simp) hp rfl rfl rfl rfl hin'
  | startTagImmediate h hs hb hn hw h0 => simp [fin, inTagState] at hin'
  | eos h => omega
  | _ => simp_all [inTagState]

/-- The state behind a start tag whose content is of the given kind. -/
def rawState : Option TT → SS
  | some .Script => .WithinScriptContent
  | some .Styles => .WithinStyleContent
  | _ => .WithinContent

theorem closesTag_concat {ts tag : List Tok} {t : Tok} (h : ClosesTag (ts ++ [t]) tag) :
    ∃ a op, ts = a ++ op :: tag ∧ op.type = .StartTagOpen ∧ (∀ t ∈ tag, t.type ≠ .StartTagOpen) ∧
      t.type = .StartTagClose ∧ t.offset < t.stop := by
  obtain ⟨a, op, cl, he, h1, h2, h3, h4⟩ := h
  have he' : ts ++ [t] = (a ++ op :: tag) ++ [cl] := by rw [he]; simp
  obtain ⟨e1, e2⟩ := List.append_inj' he' rfl
  have : t = cl := by simpa using e2
  exact ⟨a, op, e1, h1, h2, by rw [this]; exact h3, by rw [this]; exact h4⟩

theorem openTag_unique {a a' tag tag' : List Tok} {op op' : Tok} (h : a ++ op :: tag = a' ++ op' :: tag')
    (ho : op.type = .StartTagOpen) (ho' : op'.type = .StartTagOpen) (ht : ∀ t ∈ tag, t.type ≠ .StartTagOpen)
    (ht' : ∀ t ∈ tag', t.type ≠ .StartTagOpen) : tag = tag' := by
  induction a generalizing a' with
  | nil =>
    cases a' with
    | nil => simp at h; exact h.2
    | cons x a' =>
      simp at h
      exact absurd ho' (ht op' (by rw [h.2]; simp))
  | cons x a ih =>
    cases a' with
    | nil =>
      simp at h
      exact absurd ho (ht' op (by rw [← h.2]; simp))
    | cons y a' =>
      simp at h
      exact ih h.2

theorem closesTag_unique {ts tag tag' : List Tok} (h : ClosesTag ts tag) (h' : ClosesTag ts tag') : tag = tag' := by
  obtain ⟨a, op, cl, he, h1, h2, h3, h4⟩ := h
  have hts : ts = (a ++ op :: tag) ++ [cl] := by rw [he]; simp
  rw [hts] at h'
  obtain ⟨a', op', e1, k1, k2, _, _⟩ := closesTag_concat h'
  exact openTag_unique e1 h1 k1 h2 k2

/-- What the tokens so far say about the state. -/
structure OwnerHist (c : Cfg) (ts : List Tok) (s : Sc) : Prop where
  inTag : inTagState s.state = true → ∃ a op tag, ts = a ++ op :: tag ∧ op.type = .StartTagOpen ∧
    (∀ t ∈ tag, t.type ≠ .StartTagOpen) ∧ TagHist c tag s
  raw : s.pos < c.src.length → s.state = .WithinScriptContent ∨ s.state = .WithinStyleContent → ∃ tag, ClosesTag ts tag
  behind : ∀ tag, ClosesTag ts tag → s.state = rawState (rawContent c.uni c.caseSensitive c.src tag)

theorem OwnerHist.init (o : Nat) : OwnerHist c [] (.new o .WithinContent) where
  inTag := fun h => by simp [Sc.new, inTagState] at h
  raw := fun _ h => by simp [Sc.new] at h
  behind := fun tag h => by
    obtain ⟨a, op, cl, he, _⟩ := h
    simp at he

theorem afterStartTag_raw {tag : List Tok} {s s0 : Sc} (hh : TagHist c tag s) (hs : s.state ≠ .AfterOpeningStartTag)
    (hp : s.pos < c.src.length) (e1 : s0.lastTag = s.lastTag) (e2 : s0.lastType = s.lastType) :
    afterStartTag s0 = rawState (rawContent c.uni c.caseSensitive c.src tag) := by
  unfold afterStartTag rawContent
  rw [e1, e2, hh.name hs, hh.given hs hp]
  split
  · split <;> rfl
  · split <;> rfl

/-- A step out of a tag, or within it. -/
theorem OwnerHist.step {s s' : Sc} {ts : List Tok} (h : Step c s s') (hh : OwnerHist c ts s) (hne : s'.tokenType ≠ .EOS) :
    OwnerHist c (ts ++ [s'.tok]) s' := by
  have hp : s.pos < c.src.length := by
    have := h.eos_iff
    by_cases hl : c.src.length ≤ s.pos
    · exact absurd (this.2 hl) hne
    · omega
  by_cases hin : inTagState s.state = true
  · obtain ⟨a, op, tag, e1, h1, h2, h3⟩ := hh.inTag hin
    have hno : s'.tokenType ≠ .StartTagOpen := by
      clear hne
      cases h with
      | content _ h hs hx => rw [hs] at hin; simp [inTagState] at hin
      | scriptContent _ h hs hl hx => rw [hs] at hin; simp [inTagState] at hin
      | styleContent _ h hs hl hx => rw [hs] at hin; simp [inTagState] at hin
      | endTag _ h hs hx => rw [hs] at hin; simp [inTagState] at hin
      | tag _ h hs hx => cases hx <;> simp [fin]
      | afterNameTag _ h hs hw h0 hx => cases hx <;> simp [fin]
      | valueTag _ h hs hw hb h0 h1 hx => cases hx <;> simp [fin]
      | _ => simp [fin]
    have key : s'.tokenType = .StartTagClose → s'.tokenOffset < s'.pos →
        s'.state = rawState (rawContent c.uni c.caseSensitive c.src tag) := by
      intro ht hlt
      have tagCase : ∀ s0, StepTag c s0 s' → s0.lastTag = s.lastTag → s0.lastType = s.lastType →
          s.state ≠ .AfterOpeningStartTag → s'.state = rawState (rawContent c.uni c.caseSensitive c.src tag) := by
        intro s0 hx e1 e2 hs
        cases hx with
        | close s1 hp1 h => exact afterStartTag_raw h3 hs hp e1 e2
        | pseudo s1 hp1 he h =>
          have : s1.pos = s0.pos := by cases hp1 <;> rfl
          simp [fin, this] at hlt
        | _ => simp [fin] at ht
      clear hne
      cases h with
      | content _ h hs hx => rw [hs] at hin; simp [inTagState] at hin
      | scriptContent _ h hs hl hx => rw [hs] at hin; simp [inTagState] at hin
      | styleContent _ h hs hl hx => rw [hs] at hin; simp [inTagState] at hin
      | endTag _ h hs hx => rw [hs] at hin; simp [inTagState] at hin
      | tag _ h hs hx => exact tagCase _ hx rfl rfl (by rw [hs]; simp)
      | afterNameTag _ h hs hw h0 hx => exact tagCase _ hx rfl rfl (by rw [hs]; simp)
      | valueTag _ h hs hw hb h0 h1 hx => exact tagCase _ hx rfl rfl (by rw [hs]; simp)
      | startTagImmediate h hs hb hn hw h0 =>
        unfold rawContent
        rw [tagNameIn_ws (h3.opening hs)]
        rfl
      | _ => simp [fin] at ht
    have hraw : (s'.state = .WithinScriptContent ∨ s'.state = .WithinStyleContent) →
        s'.tokenType = .StartTagClose ∧ s'.tokenOffset < s'.pos := by
      intro hst
      have tagCase : ∀ s0, StepTag c s0 s' → s0.state = .WithinTag →
          s'.tokenType = .StartTagClose ∧ s'.tokenOffset < s'.pos := by
        intro s0 hx e0
        cases hx with
        | close s1 hp1 h =>
          have : s1.pos = s0.pos := by cases hp1 <;> rfl
          refine ⟨rfl, ?_⟩
          show s0.pos < s1.pos + 1
          omega
        | unknown s1 hp1 _ _ _ _ =>
          have : s1.state = s0.state := by cases hp1 <;> rfl
          simp [fin, adv, this, e0] at hst
        | _ => simp [fin, adv, e0] at hst
      clear hne
      cases h with
      | content _ h hs hx => rw [hs] at hin; simp [inTagState] at hin
      | scriptContent _ h hs hl hx => rw [hs] at hin; simp [inTagState] at hin
      | styleContent _ h hs hl hx => rw [hs] at hin; simp [inTagState] at hin
      | endTag _ h hs hx => rw [hs] at hin; simp [inTagState] at hin
      | script p st h hs hp hl hst => rw [hs] at hin; simp [inTagState] at hin
      | tag _ h hs hx => exact tagCase _ hx hs
      | afterNameTag _ h hs hw h0 hx => exact tagCase _ hx rfl
      | valueTag _ h hs hw hb h0 h1 hx => exact tagCase _ hx rfl
      | eos h => omega
      | _ => simp_all [fin, adv]
    refine ⟨fun hin' => ?_, fun _ hst => ?_, fun tag' hc => ?_⟩
    · refine ⟨a, op, tag ++ [s'.tok], by rw [e1]; simp, h1, fun t ht => ?_, h.tagHist hin h3 hin' hp⟩
      rcases List.mem_append.1 ht with ht | ht
      · exact h2 t ht
      · rw [List.mem_singleton.1 ht]; exact hno
    · obtain ⟨k1, k2⟩ := hraw hst
      exact ⟨tag, a, op, s'.tok, by rw [e1]; simp, h1, h2, k1, k2⟩
    · obtain ⟨a', op', k1, k2, k3, k4, k5⟩ := closesTag_concat hc
      rw [e1] at k1
      rw [← openTag_unique k1 h1 k2 h2 k3]
      exact key k4 k5
  · have hcl : s'.tokenType ≠ .StartTagClose ∧ (s'.pos < c.src.length → s'.state ≠ .WithinScriptContent ∧
        s'.state ≠ .WithinStyleContent) ∧ (inTagState s'.state = true → s'.tokenType = .StartTagOpen ∧
          s'.state = .AfterOpeningStartTag) := by
      have contentCase : ∀ s0, StepContent c s0 s' → s0.state = .WithinContent →
          s'.tokenType ≠ .StartTagClose ∧ (s'.pos < c.src.length → s'.state ≠ .WithinScriptContent ∧
            s'.state ≠ .WithinStyleContent) ∧ (inTagState s'.state = true → s'.tokenType = .StartTagOpen ∧
              s'.state = .AfterOpeningStartTag) := by
        intro s0 hx e0
        cases hx <;> simp [fin, adv, inTagState, e0]
      clear hne
      cases h with
      | content _ h hs hx => exact contentCase _ hx hs
      | scriptContent _ h hs hl hx => exact contentCase _ hx rfl
      | styleContent _ h hs hb hl hx => exact contentCase _ hx rfl
      | endTag _ h hs hx => cases hx <;> simp [fin, adv, inTagState, hs]
      | script p st h hs hp hl hst =>
        rcases hst with ⟨rfl, _⟩ | ⟨rfl, rfl, _⟩ <;> simp [fin, inTagState]
      | eos h => omega
      | _ => simp_all [fin, adv, inTagState]
    refine ⟨fun hin' => ?_, fun hlt hst => ?_, fun tag hc => ?_⟩
    · obtain ⟨k1, k2⟩ := hcl.2.2 hin'
      refine ⟨ts, s'.tok, [], rfl, k1, fun t ht => absurd ht (by simp), ?_⟩
      exact ⟨fun _ t ht => absurd ht (by simp), fun h => absurd k2 h, fun h => absurd k2 h,
        fun h => by rw [k2] at h; simp at h⟩
    · have := hcl.2.1 hlt
      rcases hst with h | h
      · exact absurd h this.1
      · exact absurd h this.2
    · obtain ⟨_, _, _, _, _, k4, _⟩ := closesTag_concat hc
      exact absurd k4 hcl.1

theorem Run.ownerHist {s s2 : Sc} {ts l : List Tok} (h : Run c s l s2) (hh : OwnerHist c ts s) :
    OwnerHist c (ts ++ l) s2 := by
  induction h generalizing ts with
  | nil s => simpa using hh
  | cons h hne hr ih =>
    have := ih (hh.step (scan_step h) hne)
    simpa using this

theorem stepContent_notRaw {s s' : Sc} (h : StepContent c s s') : s'.tokenType ≠ .Script ∧ s'.tokenType ≠ .Styles := by
  cases h <;> simp [fin]

theorem styleBody_here {s : Sc} (h : s.pos < c.src.length) (h0 : untilLit b!"</style" (rest c s) = 0) :
    StyleBody c.src s.pos s.pos := by
  refine ⟨Nat.le_refl _, Nat.le_of_lt h, fun i h1 h2 => by omega, .inr ?_⟩
  have hp := untilLit_prefix (l := b!"</style") (s := rest c s) (by rw [h0, rest_length]; omega)
  rw [h0] at hp
  obtain ⟨r, hr⟩ := List.isPrefixOf_iff_prefix.1 hp
  exact ⟨r, hr.symm⟩

theorem scriptBody_here {s : Sc} (h : s.pos < c.src.length)
    (hl : scriptLoop c (c.src.length - s.pos + 1) 1 s.pos = .ok (.at s.pos)) : ScriptBody c.src s.pos s.pos :=
  ⟨Nat.le_refl _, Nat.le_of_lt h, scriptLoop_reads (Nat.le_of_lt h) (.inl rfl) hl⟩

/-- What stands first in a state with raw content. -/
theorem rawState_begins {s s2 : Sc} {k : TT} {post : List Tok} (hk : k = .Script ∨ k = .Styles)
    (hs : s.state = rawState (some k)) (hle : s.pos ≤ c.src.length) (hr : Run c s post s2) (h2 : c.src.length ≤ s2.pos) :
    ∃ e, RawBody k c.src s.pos e ∧ BeginsWith k s.pos e post := by
  cases hr with
  | nil =>
    have he : s.pos = c.src.length := Nat.le_antisymm hle h2
    refine ⟨s.pos, ?_, ?_⟩
    · rcases hk with rfl | rfl
      · exact .inl ⟨rfl, Nat.le_refl _, hle, .plain, by rw [bytesIn_self]; exact .nil _, .inl he⟩
      · exact .inr ⟨rfl, Nat.le_refl _, hle, fun i h1 h2 => by omega, .inl he⟩
    · unfold BeginsWith
      rw [if_neg (Nat.lt_irrefl _)]
      simp
  | @cons _ s1 _ ts h hne hr =>
    have hst := scan_step h
    have hlt : s.pos < c.src.length := by
      by_cases hl : c.src.length ≤ s.pos
      · exact absurd (hst.eos_iff.2 hl) hne
      · omega
    have hof := hst.offset_eq
    have empty : s1.tokenType ≠ .Script ∧ s1.tokenType ≠ .Styles → BeginsWith k s.pos s.pos (s1.tok :: ts) := by
      intro h
      unfold BeginsWith
      rw [if_neg (Nat.lt_irrefl _)]
      intro t ht
      simp at ht
      rw [← ht]
      exact h
    rcases hk with rfl | rfl
    · have hs : s.state = .WithinScriptContent := hs
      have hst' := hst
      clear hne h
      cases hst with
      | eos h => omega
      | content _ h hs' hx => rw [hs] at hs'; cases hs'
      | endTag _ h hs' hx => rw [hs] at hs'; cases hs'
      | tag _ h hs' hx => rw [hs] at hs'; cases hs'
      | afterNameTag _ h hs' hw h0 hx => rw [hs] at hs'; cases hs'
      | valueTag _ h hs' hw hb h0 h1 hx => rw [hs] at hs'; cases hs'
      | styleContent _ h hs' hb h0 hx => rw [hs] at hs'; cases hs'
      | script p st h hs' hp hl hstt =>
        refine ⟨p, .inl ⟨rfl, scriptToken_body hst' rfl⟩, ?_⟩
        unfold BeginsWith
        rw [if_pos hp]
        exact ⟨_, _, rfl, rfl, rfl, rfl⟩
      | scriptContent _ h hs' hl hx =>
        refine ⟨s.pos, .inl ⟨rfl, scriptBody_here h hl⟩, empty (stepContent_notRaw hx)⟩
      | _ => exact absurd (hs.symm.trans ‹s.state = _›) (by simp)
    · have hs : s.state = .WithinStyleContent := hs
      have hst' := hst
      clear hne h
      cases hst with
      | eos h => omega
      | content _ h hs' hx => rw [hs] at hs'; cases hs'
      | endTag _ h hs' hx => rw [hs] at hs'; cases hs'
      | tag _ h hs' hx => rw [hs] at hs'; cases hs'
      | afterNameTag _ h hs' hw h0 hx => rw [hs] at hs'; cases hs'
      | valueTag _ h hs' hw hb h0 h1 hx => rw [hs] at hs'; cases hs'
      | scriptContent _ h hs' hl hx => rw [hs] at hs'; cases hs'
      | style h hs' hb h0 =>
        refine ⟨_, .inr ⟨rfl, styleToken_body hst' rfl⟩, ?_⟩
        unfold BeginsWith
        rw [if_pos (by simp [fin, adv]; omega)]
        exact ⟨_, _, rfl, rfl, rfl, rfl⟩
      | styleContent _ h hs' hb h0 hx =>
        refine ⟨s.pos, .inr ⟨rfl, styleBody_here h h0⟩, empty (stepContent_notRaw hx)⟩
      | _ => exact absurd (hs.symm.trans ‹s.state = _›) (by simp)

/-- A script or style sheet is read in its state only. -/
theorem Step.rawToken {s s' : Sc} (h : Step c s s') (ht : s'.tokenType = .Script ∨ s'.tokenType = .Styles) :
    s.pos < c.src.length ∧ s.state = rawState (some s'.tokenType) := by
  cases h with
  | content _ h hs hx => have := stepContent_notRaw hx; simp_all
  | scriptContent _ h hs hl hx => have := stepContent_notRaw hx; simp_all
  | styleContent _ h hs hb hl hx => have := stepContent_notRaw hx; simp_all
  | endTag _ h hs hx => cases hx <;> simp [fin] at ht
  | tag _ h hs hx => cases hx <;> simp [fin] at ht
  | afterNameTag _ h hs hw h0 hx => cases hx <;> simp [fin] at ht
  | valueTag _ h hs hw hb h0 h1 hx => cases hx <;> simp [fin] at ht
  | script p st h hs hp hl hst => exact ⟨h, hs⟩
  | style h hs hb h0 => exact ⟨h, hs⟩
  | _ => simp [fin] at ht

theorem rawContent_cases {tag : List Tok} {k : TT} {u : Uni} {cs : Bool} {src : Str}
    (h : rawContent u cs src tag = some k) : k = .Script ∨ k = .Styles := by
  unfold rawContent at h
  repeat' split at h
  all_goals simp_all

end Html
