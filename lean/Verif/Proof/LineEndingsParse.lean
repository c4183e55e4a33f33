import Verif.Proof.LineEndingsScan
import Verif.Proof.ParseConcat

/-!
# The parser on a text with other line endings
-/

namespace Html
open Spec

theorem crNode_eq (a : Str) (n : Node) : crNode a n = ⟨n.tag, crOff a n.start, crOff a n.stop, crNodes a n.children, n.closed,
    n.startTagEnd.map (crOff a), n.endTagStart.map (crOff a), crAttrs a n.attributes⟩ := by
  cases n
  rfl

theorem crNodes_map (a : Str) (l : List Node) : crNodes a l = l.map (crNode a) := by
  induction l with
  | nil => rfl
  | cons n l ih => show crNode a n :: crNodes a l = _; rw [ih]; rfl

theorem crNode_add (a : Str) (q n : Node) : crNode a (q.addChild n) = (crNode a q).addChild (crNode a n) := by
  cases q
  simp only [Node.addChild, crNode, crNodes_map, List.map_append]
  rfl

/-- The parser at the same place of the text with `\r\n`. -/
def crP (a : Str) (p : PState) : PState :=
  ⟨crNode a p.cur, p.parents.map (crNode a), p.endTagStart.map (crOff a), p.endTagName, p.pending⟩

theorem crP_pop (a : Str) (p : PState) : (crP a p).pop = p.pop.map (crP a) := by
  unfold PState.pop crP
  cases p.parents with
  | nil => rfl
  | cons q qs =>
    simp only [List.map_cons, Except.map, crNode_add]

theorem crP_depth (u : Uni) (cs : Bool) (name : Option Str) (a : Str) (n : Node) (l : List Node) :
    matchDepth u cs name (crNode a n) (l.map (crNode a)) = matchDepth u cs name n l := by
  induction l generalizing n with
  | nil => rfl
  | cons q qs ih =>
    have hs : (crNode a n).isSameTag u name cs = n.isSameTag u name cs := by cases n; rfl
    simp only [List.map_cons, matchDepth, hs, ih, List.length_cons, List.length_map]

theorem crP_popUnclosed (a : Str) (k : Nat) (p : PState) : popUnclosed k (crP a p) = (popUnclosed k p).map (crP a) := by
  induction k generalizing p with
  | zero => rfl
  | succ k ih =>
    unfold popUnclosed
    obtain ⟨⟨tag, start, stop, ch, cl, ste, ets, at'⟩, ps, e, en, pe⟩ := p
    cases e with
    | none => rfl
    | some e =>
      show ((crP a ⟨⟨tag, start, e, ch, false, ste, ets, at'⟩, ps, some e, en, pe⟩).pop >>= _) =
        Except.map _ (PState.pop ⟨⟨tag, start, e, ch, false, ste, ets, at'⟩, ps, some e, en, pe⟩ >>= _)
      rw [crP_pop]
      cases PState.pop ⟨⟨tag, start, e, ch, false, ste, ets, at'⟩, ps, some e, en, pe⟩ with
      | error e => rfl
      | ok q => exact ih q

theorem crAttrs_insert (a : Str) (m : List (Str × Attr)) (k : Str) (v : Attr) :
    attrInsert (crAttrs a m) k ⟨v.value.map crlf, crOff a v.offset⟩ = crAttrs a (attrInsert m k v) := by
  induction m with
  | nil => rfl
  | cons x m ih =>
    obtain ⟨k', v'⟩ := x
    show attrInsert ((k', _) :: crAttrs a m) k _ = _
    unfold attrInsert
    split
    · rfl
    · rw [ih]; rfl

theorem crAttrs_set (a : Str) (m : List (Str × Attr)) (k v : Str) :
    attrSetValue (crAttrs a m) k (crlf v) = (attrSetValue m k v).map (crAttrs a) := by
  induction m with
  | nil => rfl
  | cons x m ih =>
    obtain ⟨k', v'⟩ := x
    show attrSetValue ((k', _) :: crAttrs a m) k _ = _
    unfold attrSetValue
    split
    · rfl
    · rw [ih]
      cases attrSetValue m k v with
      | error e => rfl
      | ok m' => rfl

/-- Names of tags and attributes are on one line. -/
theorem name_line {c : Cfg} {s s' : Sc} (h : scan c s = .ok s')
    (ht : s'.tokenType = .StartTag ∨ s'.tokenType = .EndTag ∨ s'.tokenType = .AttributeName) :
    10 ∉ bytesIn c.src s'.tokenOffset s'.pos := by
  have hn : ∀ n, 10 ∉ (rest c s).take n → 10 ∉ bytesIn c.src s.pos (s.pos + n) := by
    intro n hh
    rw [bytesIn_eq_take]
    exact hh
  have tg : ∀ {a s' : Sc}, a.pos = s.pos → StepTag c a s' → (s'.tokenType = .StartTag ∨ s'.tokenType = .EndTag ∨ s'.tokenType = .AttributeName) →
      10 ∉ bytesIn c.src s'.tokenOffset s'.pos := by
    intro a s' ha h ht
    have hr : rest c a = rest c s := by unfold rest; rw [ha]
    cases h with
    | attrName hs hw hb h =>
      show 10 ∉ bytesIn c.src a.pos (a.pos + attrNameLen (rest c a))
      rw [ha, hr]
      exact hn _ (firstRun_no10 rfl rfl _)
    | ws h => simp [fin] at ht
    | selfClose s1 hp h => simp [fin] at ht
    | close s1 hp h => simp [fin] at ht
    | pseudo s1 hp he h => simp [fin] at ht
    | unknown s1 hp h0 h1 h2 h3 => simp [fin] at ht
  have ct : ∀ {a s' : Sc}, StepContent c a s' → ¬ (s'.tokenType = .StartTag ∨ s'.tokenType = .EndTag ∨ s'.tokenType = .AttributeName) := by
    intro a s' h
    cases h <;> simp [fin]
  cases scan_step h with
  | content _ h hs hx => exact absurd ht (ct hx)
  | scriptContent _ h hs hl hx => exact absurd ht (ct hx)
  | styleContent _ h hs hb h0 hx => exact absurd ht (ct hx)
  | tag _ h hs hx => exact tg rfl hx ht
  | afterNameTag _ h hs hw h0 hx => exact tg (a := { s with state := .WithinTag }) rfl hx ht
  | valueTag _ h hs hw hb h0 h1 hx => exact tg (a := { s with state := .WithinTag, hasSpace := false }) rfl hx ht
  | endTagName h hs hb h0 => exact hn _ (firstRun_no10 (p := nameFirst c.uni) (q := nameRest c.uni) rfl rfl _)
  | startTagName h hs hb h0 => exact hn _ (firstRun_no10 (p := nameFirst c.uni) (q := nameRest c.uni) rfl rfl _)
  | endTag _ h hs hx => cases hx <;> simp [fin] at ht
  | _ => simp [fin] at ht

section
variable {c c' : Cfg} (h : Lines c c') (void : List Str)
include h

theorem ln_parseStep (p : PState) (s0 s : Sc) (l : Option Str) (hsc : scan c s0 = .ok s) :
    parseStep c' void (crP c.src p) (crS c s l) = (parseStep c void p s).map (crP c.src) := by
  have htx : tokenText c' (crS c s l) = (tokenText c s).map crlf := by
    unfold tokenText
    rw [h.src]
    exact crlf_slice _ _ _
  have hname : ∀ x, tokenText c s = .ok x → (s.tokenType = .StartTag ∨ s.tokenType = .EndTag ∨ s.tokenType = .AttributeName) →
      crlf x = x := by
    intro x hx ht
    have := (sliceStr_ok hx).2.2.2.2
    rw [this]
    exact crlf_none (name_line hsc ht)
  have hpe : (crP c.src p).parents.isEmpty = p.parents.isEmpty := by
    unfold crP
    cases p.parents <;> rfl
  have htt : (crS c s l).tokenType = s.tokenType := rfl
  unfold parseStep
  rw [htt, hpe]
  obtain ⟨⟨tag, start, stop, ch, cl, ste, ets, at'⟩, ps, e, en, pe⟩ := p
  cases ht : s.tokenType <;> try rfl
  case StartTagOpen =>
    simp only [h.src, ← crOff_length]
    rfl
  case StartTag =>
    simp only [htx]
    cases hx : tokenText c s with
    | error e => rfl
    | ok x =>
      simp only [Except.map, bind, Except.bind, hname x hx (by simp [ht])]
      rfl
  case StartTagClose =>
    simp only
    have hlen : ((crS c s l).tokenLength > 0) = (s.tokenLength > 0) := by
      unfold Sc.tokenLength
      show (crOff c.src s.pos - crOff c.src s.tokenOffset > 0) = _
      have := crOff_lt (a := c.src) (o := s.tokenOffset) (p := s.pos)
      rw [eq_iff_iff]; omega
    simp only [hlen]
    split
    · rfl
    · split
      · show (if tag.any (fun t => void.contains t) = true then _ else _) =
          Except.map _ (if tag.any (fun t => void.contains t) = true then _ else _)
        split
        · exact crP_pop c.src ⟨⟨tag, start, s.tokenEnd, ch, true, some s.tokenEnd, ets, at'⟩, ps, e, en, pe⟩
        · rfl
      · exact crP_pop c.src ⟨⟨tag, start, s.tokenEnd, ch, cl, ste, ets, at'⟩, ps, e, en, pe⟩
  case StartTagSelfClose =>
    simp only
    split
    · rfl
    · exact crP_pop c.src ⟨⟨tag, start, s.tokenEnd, ch, true, some s.tokenEnd, ets, at'⟩, ps, e, en, pe⟩
  case EndTag =>
    simp only [htx]
    cases hx : tokenText c s with
    | error e => rfl
    | ok x =>
      simp only [Except.map, bind, Except.bind, hname x hx (by simp [ht]), h.uni, h.cs]
      rfl
  case EndTagClose =>
    simp only [h.uni, h.cs]
    have hd := crP_depth c.uni c.caseSensitive en c.src ⟨tag, start, stop, ch, cl, ste, ets, at'⟩ ps
    show (if matchDepth c.uni c.caseSensitive en (crNode c.src ⟨tag, start, stop, ch, cl, ste, ets, at'⟩) (ps.map (crNode c.src)) > 0 then
        (popUnclosed ((ps.map (crNode c.src)).length - matchDepth c.uni c.caseSensitive en (crNode c.src ⟨tag, start, stop, ch, cl, ste, ets, at'⟩) (ps.map (crNode c.src)))
          (crP c.src ⟨⟨tag, start, stop, ch, cl, ste, ets, at'⟩, ps, e, en, pe⟩) >>= _) else _) = Except.map _ (if _ then _ else _)
    rw [hd, List.length_map]
    split
    · rw [crP_popUnclosed]
      cases popUnclosed (ps.length - matchDepth c.uni c.caseSensitive en ⟨tag, start, stop, ch, cl, ste, ets, at'⟩ ps)
        ⟨⟨tag, start, stop, ch, cl, ste, ets, at'⟩, ps, e, en, pe⟩ with
      | error e => rfl
      | ok q =>
        obtain ⟨⟨tag, start, stop, ch, cl, ste, ets, at'⟩, ps, e, en, pe⟩ := q
        exact crP_pop c.src ⟨⟨tag, start, s.tokenEnd, ch, true, ste, e, at'⟩, ps, e, en, pe⟩
    · rfl
  case AttributeName =>
    simp only [htx]
    cases hx : tokenText c s with
    | error e => rfl
    | ok x =>
      simp only [Except.map, bind, Except.bind, hname x hx (by simp [ht])]
      refine congrArg Except.ok ?_
      show PState.mk _ _ _ _ _ = PState.mk _ _ _ _ _
      congr 1
      exact congrArg (Node.mk tag _ _ _ cl _ _) (crAttrs_insert c.src at' x ⟨none, s.tokenOffset⟩)
  case DelimiterAssign =>
    cases pe with
    | none => rfl
    | some k =>
      show (attrSetValue (crAttrs c.src at') k (crlf []) >>= _) = Except.map _ (attrSetValue at' k [] >>= _)
      rw [crAttrs_set]
      cases attrSetValue at' k [] with
      | error e => rfl
      | ok m => rfl
  case AttributeValue =>
    simp only [htx]
    cases hx : tokenText c s with
    | error e => rfl
    | ok x =>
      cases pe with
      | none => rfl
      | some k =>
        show (attrSetValue (crAttrs c.src at') k (crlf x) >>= _) = Except.map _ (attrSetValue at' k x >>= _)
        rw [crAttrs_set]
        cases attrSetValue at' k x with
        | error e => rfl
        | ok m => rfl

theorem ln_parseLoop (f : Nat) (p : PState) (s : Sc) (l : Option Str)
    (hl : s.pos < c.src.length → s.lastType.isSome = l.isSome) :
    parseLoop c' void f (crP c.src p) (crS c s l) = (parseLoop c void f p s).map (crP c.src) := by
  induction f generalizing p s l with
  | zero => rfl
  | succ f ih =>
    have hs := ln_scan h s l hl
    unfold parseLoop
    revert hs
    cases hsc : scan c s with
    | error e => cases scan c' (crS c s l) with
      | error e' => intro hs; cases hs; rfl
      | ok s' => exact False.elim
    | ok s1 => cases scan c' (crS c s l) with
      | error e' => exact False.elim
      | ok s' =>
        rintro ⟨l1, rfl, h1⟩
        simp only [bind, Except.bind]
        show (if s1.tokenType = .EOS then _ else _) = Except.map _ (if s1.tokenType = .EOS then _ else _)
        split
        · rfl
        · rw [ln_parseStep h void p s s1 l1 hsc]
          cases parseStep c void p s1 with
          | error e => rfl
          | ok q => exact ih q s1 l1 h1

end

theorem crP_finish (a : Str) (n : Node) (l : List Node) :
    finishAll (crlf a).length (crNode a n) (l.map (crNode a)) = crNode a (finishAll a.length n l) := by
  induction l generalizing n with
  | nil => rfl
  | cons q qs ih =>
    simp only [List.map_cons, finishAll]
    rw [← ih, crNode_add, ← crOff_length]
    cases n
    rfl

theorem ln_parse {cps : List Nat} (u : Uni) (cs : Bool) (void : List Str) {src : Str} (hu : Utf8 cps src) :
    parse u cs void (crlf src) = (parse u cs void src).map (crNodes src) := by
  have h : Lines (parserCfg u cs src) (parserCfg u cs (crlf src)) := ⟨rfl, rfl, rfl, rfl, fit_of_utf8 hu⟩
  have hl := ln_parseLoop h void (2 * (crlf src).length + 1) (.init src.length) (.new 0 .WithinContent) none (fun _ => rfl)
  have hi : crP src (.init src.length) = .init (crlf src).length := by
    show PState.mk (Node.mk _ _ _ _ _ _ _ _) _ _ _ _ = _
    simp only [Node.new, crOff_zero, crOff_length]
    rfl
  have hs : crS (parserCfg u cs src) (.new 0 .WithinContent) none = .new 0 .WithinContent := by
    rw [crS_new]
    rfl
  rw [hs, show crP (parserCfg u cs src).src (.init src.length) = _ from hi] at hl
  unfold parse
  dsimp only
  rw [hl]
  have hm : mu (parserCfg u cs src) (.new 0 .WithinContent) < 2 * src.length + 1 := by
    unfold mu Sc.new parserCfg; simp only; split <;> omega
  have hle : src.length ≤ (crlf src).length := by rw [crlf_length]; omega
  have := parseLoop_fuel (void := void) (p := .init src.length) hm (2 * (crlf src).length - 2 * src.length)
  rw [show 2 * src.length + 1 + (2 * (crlf src).length - 2 * src.length) = 2 * (crlf src).length + 1 by omega] at this
  rw [this]
  cases parseLoop (parserCfg u cs src) void (2 * src.length + 1) (.init src.length) (.new 0 .WithinContent) with
  | error e => rfl
  | ok p =>
    show Except.ok _ = Except.ok _
    refine congrArg Except.ok ?_
    show (finishAll _ (crNode src p.cur) (p.parents.map (crNode src))).children = _
    rw [crP_finish, crNode_eq]

end Html
