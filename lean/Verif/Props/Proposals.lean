import Verif.Proof.OnlyEnabled
import Verif.Proof.EditRanges
import Verif.Props.Completion

/-! # Proposals: C41 -/

namespace Html.Props
open Html Spec

/-- A provider for a language: three attributes for every element and one value for every attribute. -/
def exNames (lang : Str) : Provider where
  id := lang
  isApplicable := fun l => l == lang
  provideTags := [⟨b!"p", none, [], none, none⟩]
  provideAttributes := fun _ _ => [⟨b!"class", none, none, none, none⟩, ⟨b!"id", none, none, none, none⟩,
    ⟨b!"hidden", none, some b!"v", none, none⟩]
  provideValues := fun _ _ => [⟨b!"c", none, none⟩]

/-- Two providers, one of them for the language. -/
def exNamesEnv (u : Uni) (cs : Bool) : CompEnv :=
  { exComp with uni := u, caseSensitive := cs, providers := [exNames b!"html", exNames b!"css"] }

/-- The labels, ranges and texts of the proposals in a text of one line. -/
def exPropose (e : CompEnv) (text : Str) (o : Nat) : R (List (Str × Option (Nat × Nat × Str))) := do
  let roots ← parse e.uni e.caseSensitive [] text
  let r ← doComplete e (exLine text) ⟨0, o⟩ roots
  .ok (r.map fun i => (i.label, i.textEdit.map fun t => (t.range.start.character, t.range.stop.character, t.newText)))

def exNamesText : Str := b!"<p class='a'  id><i data-x></i>"

/-! ### C41 -/

/-- C41: with the cursor in or behind the name `t` of an attribute, the proposals are attribute names for the
element, which replace the name (if it is ASCII, all of it).  The name that is typed may be proposed
although the element has it. -/
theorem C41_in_name (e : CompEnv) (void : List Str) (d : TextDoc) (position : Pos) (roots : List Node)
    (pre post : List Tok) (t : Tok) (o : Nat) (r : List CompItem)
    (h : parse e.uni e.caseSensitive void d.text = .ok roots)
    (ht : tokens (parserCfg e.uni e.caseSensitive d.text) (.new 0 .WithinContent) = .ok (pre ++ t :: post))
    (ho : d.offsetAt position = o) (h1 : t.offset < o) (h2 : o ≤ t.stop) (hk : t.type = .AttributeName)
    (hr : doComplete e d position roots = .ok r) :
    ∃ n x named data, InForest roots n ∧ n.start < t.offset ∧ t.stop ≤ n.startTagEnd.getD n.stop ∧
      r = named ++ data ∧
      NameProposals e roots n o ⟨d.posAt t.offset, d.posAt x⟩ (· = Spec.text d.text t) (EqualsFollows d.text t.stop)
        named data ∧
      o ≤ x ∧ x ≤ t.stop ∧ ((∀ b ∈ Spec.text d.text t, b < 128) → x = t.stop) := by
  have hd : Doc e.uni e.caseSensitive void d.text roots (pre ++ t :: post) := ⟨h, ht⟩
  have hb : lastBracket (pre.map Tok.type) = some .StartTagOpen := by
    have := hd.grammar rfl
    rw [hk] at this
    exact this
  obtain ⟨m, ps, p, t0, mid, s, q, g1, g2, g3, g4, g5, g6, g7, g8, g9, rfl, g11, g12, g13, rfl⟩ :=
    hd.complete_in_tag rfl hb (by rw [hk]; rfl) h1 h2 ho hr
  have hk : s.tokenType = .AttributeName := hk
  have hm := g9 (hd.named rfl hk)
  unfold CompCtx.onToken at g13
  rw [hk] at g13
  simp only at g13
  unfold CompCtx.onAttributeName at g13
  have ht : CompCtx.touches ⟨e, d, position, o, m, ps, roots⟩ s = true := by
    unfold CompCtx.touches
    have h1 : s.tokenOffset < o := h1
    have h2 : o ≤ s.pos := h2
    simp; omega
  rw [if_pos ht] at g13
  obtain ⟨r', g15, g14⟩ := bind_ok g13
  cases g14
  rw [← hm] at g15
  have h1 : s.tokenOffset < o := h1
  have h2 : o ≤ s.pos := h2
  obtain ⟨named, data, c1, c2⟩ := attrNames_spec (x := ⟨e, d, position, o, m, ps, roots⟩) (typed := (· = Spec.text d.text s.tok)) g15
    (by rw [Nat.min_eq_left (by omega), Nat.max_eq_right (by omega)]; intro l; rfl)
    (by rw [Nat.min_eq_left (by omega), Nat.max_eq_right (by omega)]; intro l _; rfl)
  have hx := replaceEnd_bounds d.text (s.pos - o) o
  refine ⟨m, replaceEnd d.text (s.pos - o) o, named, data, g1, g3, g4, c1, ?_, hx.1, ?_, fun ha => ?_⟩
  · have : (CompCtx.replaceRange ⟨e, d, position, o, m, ps, roots⟩ s.tokenOffset (replaceEnd d.text (s.pos - o) o)) =
      ⟨d.posAt s.tokenOffset, d.posAt (replaceEnd d.text (s.pos - o) o)⟩ := by
      simp [CompCtx.replaceRange, Nat.min_eq_left (Nat.le_of_lt h1)]
    show NameProposals e roots m o ⟨d.posAt s.tokenOffset, _⟩ _ _ _ _
    rw [← this]
    exact c2
  · show _ ≤ s.pos
    omega
  · have hcur : isBoundary d.text s.pos = true ∧ s.pos ≤ d.text.length := by
      unfold CompCtx.attrNames at g15
      simp only at g15
      obtain ⟨cur, k1, _⟩ := bind_ok g15
      have := sliceStr_ok k1
      rw [Nat.max_eq_right (by omega)] at this
      exact ⟨this.2.2.2.1, this.2.1⟩
    have hok := hd.textOK (t := s.tok) (by simp)
    unfold TextOK at hok
    rw [show s.tok.type = .AttributeName from hk] at hok
    show _ = s.pos
    rw [replaceEnd_full ?_ (by rw [show o + (s.pos - o) = s.pos by omega]; exact hcur.1)]
    · omega
    · intro k k1 k2
      have hk' : k < d.text.length := by omega
      have hmem : d.text[k] ∈ Spec.text d.text s.tok := by
        unfold Spec.text
        rw [List.mem_drop_iff_getElem]
        refine ⟨k - s.tokenOffset, by simp [Sc.tok]; omega, ?_⟩
        simp only [Sc.tok, List.getElem_take]
        congr 1; omega
      exact ⟨_, List.getElem?_eq_getElem hk', ha _ hmem, (hok.2 _ hmem (ha _ hmem)).2.2.2.2.1⟩

/-- C41: in the white space behind the name of an element, its attributes or their values the proposals are
attribute names for the element, inserted at the cursor. -/
theorem C41_in_blanks (e : CompEnv) (void : List Str) (d : TextDoc) (position : Pos) (roots : List Node)
    (pre post : List Tok) (t : Tok) (o : Nat) (r : List CompItem)
    (h : parse e.uni e.caseSensitive void d.text = .ok roots)
    (ht : tokens (parserCfg e.uni e.caseSensitive d.text) (.new 0 .WithinContent) = .ok (pre ++ t :: post))
    (ho : d.offsetAt position = o) (h1 : t.offset < o) (h2 : o ≤ t.stop) (hk : t.type = .Whitespace)
    (hb : lastBracket (pre.map Tok.type) = some .StartTagOpen)
    (hl : lastNonWs (pre.map Tok.type) ≠ some .StartTagOpen)
    (hr : doComplete e d position roots = .ok r) :
    ∃ n named data, InForest roots n ∧ n.start < t.offset ∧ t.stop ≤ n.startTagEnd.getD n.stop ∧
      r = named ++ data ∧
      NameProposals e roots n o ⟨d.posAt o, d.posAt o⟩ (fun _ => False) (EqualsFollows d.text o) named data := by
  have hd : Doc e.uni e.caseSensitive void d.text roots (pre ++ t :: post) := ⟨h, ht⟩
  have hst := hd.ws_state rfl hk hb hl
  obtain ⟨m, ps, p, t0, mid, s, q, g1, g2, g3, g4, g5, g6, g7, g8, g9, rfl, g11, g12, g13, rfl⟩ :=
    hd.complete_in_tag rfl hb (by rw [hk]; rfl) h1 h2 ho hr
  have hm := g9 hl
  have hok := hd.textOK (t := s.tok) (by simp)
  unfold TextOK at hok
  rw [hk] at hok
  have hk : s.tokenType = .Whitespace := hk
  have h1 : s.tokenOffset < o := h1
  have h2 : o ≤ s.pos := h2
  have hst : s.state = .WithinTag ∨ s.state = .AfterAttributeName := hst
  unfold CompCtx.onToken at g13
  rw [hk] at g13
  simp only at g13
  unfold CompCtx.onWhitespace at g13
  rw [if_pos h2] at g13
  have g13 : (do let r ← CompCtx.attrNames ⟨e, d, position, o, m, ps, roots⟩ (lastText .StartTag d.text mid none) s.pos o
                 .ok (some r)) = Except.ok (ε := Panic) q := by
    rcases hst with hst | hst <;> rw [hst] at g13 <;> exact g13
  obtain ⟨r', g15, g14⟩ := bind_ok g13
  cases g14
  rw [← hm] at g15
  have blank : ∀ b ∈ bytesIn d.text o s.pos, Space b := by
    intro b hb
    refine hok.2 b ?_
    unfold bytesIn at hb
    unfold Spec.text
    rw [List.mem_drop_iff_getElem] at hb ⊢
    obtain ⟨i, k1, k2⟩ := hb
    refine ⟨i + (o - s.tokenOffset), by simp [Sc.tok] at k1 ⊢; omega, ?_⟩
    rw [← k2]
    simp only [Sc.tok, List.getElem_take]
    congr 1; omega
  have none' : ∀ l, l = bytesIn d.text o s.pos → ¬ AttributeName l := by
    rintro l rfl ⟨k1, k2⟩
    cases hx : bytesIn d.text o s.pos with
    | nil => exact k1 hx
    | cons b l =>
      have hs := blank b (by rw [hx]; simp)
      have := k2 b (by rw [hx]; simp)
      simp only [Space] at hs
      omega
  obtain ⟨named, data, c1, c2⟩ := attrNames_spec (x := ⟨e, d, position, o, m, ps, roots⟩) (typed := fun _ => False) g15
    (by
      rw [Nat.min_eq_right h2, Nat.max_eq_left h2]
      intro l
      constructor
      · rintro (h | h)
        · exact h.elim
        · exact .inr h
      · rintro (h | h)
        · exact .inr fun hh => none' l h (hd.node_attrs g1 hh)
        · exact .inr h)
    (by
      rw [Nat.min_eq_right h2, Nat.max_eq_left h2]
      intro l hp
      refine ⟨False.elim, fun h => ?_⟩
      have := blank 100 (by rw [← h]; exact hp.subset (by decide))
      simp [Space] at this)
  refine ⟨m, named, data, g1, g3, g4, c1, ?_⟩
  have : (CompCtx.replaceRange ⟨e, d, position, o, m, ps, roots⟩ s.pos (replaceEnd d.text (o - o) o)) =
      ⟨d.posAt o, d.posAt o⟩ := by
    simp [CompCtx.replaceRange, Nat.min_eq_right h2, replaceEnd]
  rw [← this]
  exact c2

/-- The class of the element is not proposed again; `id`, in which the cursor is, may be proposed. -/
example : exPropose (exNamesEnv exUni false) exNamesText 15 = .ok
    [(b!"id", some (14, 16, b!"id=\"$1\"")), (b!"hidden", some (14, 16, b!"hidden")),
     (b!"data-x", some (14, 16, b!"data-x=\"$1\"")), (b!"data-", some (14, 16, b!"data-$1=\"$2\""))] := by
  krfl

example : exPropose (exNamesEnv exUni false) exNamesText 13 = .ok
    [(b!"hidden", some (13, 13, b!"hidden")), (b!"data-x", some (13, 13, b!"data-x=\"$1\"")),
     (b!"data-", some (13, 13, b!"data-$1=\"$2\""))] := by
  krfl

/-- The cursors of both examples are in tokens as the theorems demand. -/
example : returns (tokens (parserCfg exUni false exNamesText) (.new 0 .WithinContent)) (fun ts =>
    ((ts[6]?.map fun t => (t.type, t.offset, t.stop)) == some (.Whitespace, 12, 14) &&
      (ts[7]?.map fun t => (t.type, t.offset, t.stop)) == some (.AttributeName, 14, 16) &&
      lastBracket ((ts.take 6).map Tok.type) == some .StartTagOpen &&
      lastNonWs ((ts.take 6).map Tok.type) == some .AttributeValue)) = true := by
  decide +kernel

/-- With `=` behind the cursor nothing is appended to the name; the texts for `data-` do not care. -/
example : exPropose (exNamesEnv exUni false) b!"<p i ='1'>" 4 = .ok
    [(b!"class", some (3, 4, b!"class")), (b!"id", some (3, 4, b!"id")), (b!"hidden", some (3, 4, b!"hidden")),
     (b!"data-", some (3, 4, b!"data-$1=\"$2\""))] := by
  krfl

/-- C41 finding: where a value is missing, behind the white space that follows `=`, the proposals are names
of attributes. -/
theorem C41_names_for_values (u : Uni) (cs : Bool) :
    exPropose (exNamesEnv u cs) b!"<p b= >" 6 = .ok
      [(b!"class", some (6, 6, b!"class=\"$1\"")), (b!"id", some (6, 6, b!"id=\"$1\"")),
       (b!"hidden", some (6, 6, b!"hidden")), (b!"data-", some (6, 6, b!"data-$1=\"$2\""))] ∧
    exPropose (exNamesEnv u cs) b!"<p b= >" 5 = .ok [(b!"c", some (5, 5, b!"\"c\""))] := by
  cases cs <;> exact ⟨by krfl, by krfl⟩

/-- C41: providers for other languages and providers that are switched off play no part: exchanging them
changes nothing (as long as the void elements stay the same). -/
theorem C41_only_enabled (e : CompEnv) (ps : List Provider) (d : TextDoc) (position : Pos) (roots : List Node)
    (hp : ps.filter (Enabled e ·) = e.providers.filter (Enabled e ·))
    (hv : CompEnv.void { e with providers := ps } = e.void) :
    doComplete { e with providers := ps } d position roots = doComplete e d position roots := by
  have key : ∀ l : List Provider, CompEnv.active { e with providers := l } = l.filter (Enabled e ·) := by
    intro l
    refine List.filter_congr fun p _ => ?_
    rw [Bool.eq_iff_iff, decide_eq_true_iff]
    unfold Enabled
    simp only
    cases hs : e.settings with
    | none => simp
    | some c =>
      simp
      intro _
      cases HMap.find c.provider p.id <;> simp
  exact other_doComplete (ps := ps) ((key ps).trans (hp.trans (key e.providers).symm)) hv

/-- The provider for another language can be left out. -/
example (u : Uni) (cs : Bool) (d : TextDoc) (position : Pos) (roots : List Node) :
    doComplete { exComp with uni := u, caseSensitive := cs, providers := [exNames b!"html"] } d position roots =
      doComplete (exNamesEnv u cs) d position roots :=
  C41_only_enabled (exNamesEnv u cs) [exNames b!"html"] d position roots (by krfl) (by cases cs <;> krfl)

/-- A provider that is switched off can be left out. -/
example (u : Uni) (cs : Bool) (d : TextDoc) (position : Pos) (roots : List Node) :
    doComplete { exNamesEnv u cs with settings := some ⟨false, .double, [(b!"html", false)]⟩, providers := [] }
        d position roots =
      doComplete { exNamesEnv u cs with settings := some ⟨false, .double, [(b!"html", false)]⟩ } d position roots :=
  C41_only_enabled { exNamesEnv u cs with settings := some ⟨false, .double, [(b!"html", false)]⟩ } [] d position roots
    (by krfl) (by cases cs <;> krfl)

/-! ### C57 -/

/-- C57: whatever the document, the edit of every proposal that does not come from a participant replaces
text around the cursor. -/
theorem C57_around_cursor (e : CompEnv) (d : TextDoc) (position : Pos) (roots : List Node) (r : List CompItem)
    (hr : doComplete e d position roots = .ok r) :
    ∀ i ∈ r, FromParticipant e i ∨ ∀ ed, i.textEdit = some ed → AroundCursor d position ed.range := by
  unfold doComplete at hr
  simp only at hr
  split at hr
  · cases hr; intro i hi; cases hi
  · obtain ⟨s, h1, h2⟩ := bind_ok hr
    exact fine_loop (x := ⟨e, d, position, _, _, _, roots⟩) (scan_step h1) h2

/-- C57 finding: the replaced text can reach over several lines, which the protocol forbids: behind `=` it is
the whole value that follows, and behind `<` and white space it begins at the `<`. -/
theorem C57_over_lines (u : Uni) (cs : Bool) :
    (∃ roots i, parse u cs [] b!"<a b=\"x\ny\">" = .ok roots ∧
      doComplete (exNamesEnv u cs) (.ref b!"<a b=\"x\ny\">") ⟨0, 5⟩ roots = .ok [i] ∧
      i.textEdit = some ⟨⟨⟨0, 5⟩, ⟨1, 2⟩⟩, b!"\"c\""⟩) ∧
    (∃ roots i, parse u cs [] b!"<\n" = .ok roots ∧
      doComplete (exNamesEnv u cs) (.ref b!"<\n") ⟨1, 0⟩ roots = .ok [i] ∧
      i.textEdit = some ⟨⟨⟨0, 1⟩, ⟨1, 0⟩⟩, b!"p"⟩) := by
  refine ⟨⟨[⟨some b!"a", 0, 11, [], false, some 11, none, [(b!"b", ⟨some b!"\"x\ny\"", 3⟩)]⟩],
    ⟨b!"c", some .unit, none, some b!"\"c\"", some ⟨⟨⟨0, 5⟩, ⟨1, 2⟩⟩, b!"\"c\""⟩, some false, false⟩, ?_, ?_, rfl⟩,
    ⟨[⟨none, 0, 2, [], false, none, none, []⟩],
     ⟨b!"p", some .property, none, none, some ⟨⟨⟨0, 1⟩, ⟨1, 0⟩⟩, b!"p"⟩, some false, false⟩, ?_, ?_, rfl⟩⟩ <;>
  cases cs <;> krfl

end Html.Props
