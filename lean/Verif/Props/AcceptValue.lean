import Verif.Proof.AcceptValue
import Verif.Props.Retag
import Verif.Props.ValueProposals

/-! # Accepting a proposed attribute value: C77 -/

namespace Html.Props
open Html Spec

/-- C77: with the cursor directly behind the `=` of an attribute, or in its value without quotes, every value that an
enabled provider knows for this attribute of this element is proposed.  Accepting it replaces the value by this one in
double quotes, and nothing else of the text. -/
theorem C77_accept (e : CompEnv) (void : List Str) (d : TextDoc) (cps : List Nat) (position : Pos) (o : Nat) (roots : List Node)
    (r : List CompItem) (pre v y : Str) (tag : TagHole) (k : ValueData) (hu : Utf8 cps d.text) (hd : Lawful d)
    (hpre : EndsInContent e.uni e.caseSensitive pre) (hn : LegalName tag.name) (hl : (tag.fill v).Legal)
    (ht : d.text = pre ++ (tag.fill v).print ++ (b!">" ++ y))
    (h : parse e.uni e.caseSensitive void d.text = .ok roots) (ho : d.offsetAt position = o)
    (hc : o = pre.length + tag.front.length ∨
      pre.length + tag.front.length < o ∧ o ≤ pre.length + tag.front.length + v.length ∧ Bare v)
    (hr : doComplete e d position roots = .ok r) (hk : k ∈ knownValues e tag.name tag.key) :
    ∃ i ∈ r, i.label = k.name ∧ ∃ te, i.textEdit = some te ∧
      applyEdits d [te] = pre ++ (tag.fill (b!"\"" ++ k.name ++ b!"\"")).print ++ (b!">" ++ y) :=
  accept_bare hu hd hpre hn hl ht h ho hc hr hk

/-- C77: with the cursor between the quotes of a value, every value that an enabled provider knows for this attribute of
this element is proposed.  Accepting it replaces the word around the cursor, and nothing else of the text. -/
theorem C77_accept_in_quotes (e : CompEnv) (void : List Str) (d : TextDoc) (cps : List Nat) (position : Pos) (o : Nat)
    (roots : List Node) (r : List CompItem) (pre w y : Str) (q : Nat) (tag : TagHole) (hu : Utf8 cps d.text) (hd : Lawful d)
    (hpre : EndsInContent e.uni e.caseSensitive pre) (hn : LegalName tag.name) (hl : (tag.fill ([q] ++ w ++ [q])).Legal)
    (hq : q = 34 ∨ q = 39) (ht : d.text = pre ++ (tag.fill ([q] ++ w ++ [q])).print ++ (b!">" ++ y))
    (h : parse e.uni e.caseSensitive void d.text = .ok roots) (ho : d.offsetAt position = o)
    (hc1 : pre.length + tag.front.length < o) (hc2 : o ≤ pre.length + tag.front.length + 1 + w.length)
    (hr : doComplete e d position roots = .ok r) :
    ∃ w1 x w2, w = w1 ++ x ++ w2 ∧ WordOf w1 x w2 (o - (pre.length + tag.front.length + 1)) ∧
      ∀ k ∈ knownValues e tag.name tag.key, ∃ i ∈ r, i.label = k.name ∧ ∃ te, i.textEdit = some te ∧
        applyEdits d [te] = pre ++ (tag.fill ([q] ++ (w1 ++ k.name ++ w2) ++ [q])).print ++ (b!">" ++ y) :=
  accept_quoted hu hd hpre hn hl hq ht h ho hc1 hc2 hr

/-- C77: a UTF-8 text in which a value is replaced by one in quotes is parsed exactly if the text itself is; then the element
has the new value, what is behind it moves, and nothing else changes. -/
theorem C77_new_document (u : Uni) (cs : Bool) (void : List Str) (pre v v' y : Str) (tag : TagHole) (cps cps' : List Nat)
    (hpre : EndsInContent u cs pre) (hn : LegalName tag.name) (hl : (tag.fill v).Legal) (hv : Quoted v')
    (h : Utf8 cps (pre ++ (tag.fill v).print ++ (b!">" ++ y))) (h' : Utf8 cps' (pre ++ (tag.fill v').print ++ (b!">" ++ y))) :
    parse u cs void (pre ++ (tag.fill v').print ++ (b!">" ++ y)) =
      (parse u cs void (pre ++ (tag.fill v).print ++ (b!">" ++ y))).map
        (retagAll pre.length (tag.fill v).print.length (tag.fill v').print.length ((tag.fill v').nodes pre.length)) :=
  C76_parsed u cs void pre (b!">" ++ y) (tag.fill v) (tag.fill v') cps cps' hpre hn.1 hl (fill_legal hl hv) rfl (.inl hn)
    (.inl ⟨y, rfl⟩) h h'

/-- The hypotheses are met by `<p a=u>` with the cursor behind `u`. -/
def exHole : TagHole := ⟨b!"p", [], b!" ", b!"a", [], []⟩

example : (exHole.fill b!"u").print ++ b!">" = b!"<p a=u>" ∧ exHole.front.length = 5 := by decide

example : (exHole.fill b!"u").Legal ∧ LegalName exHole.name ∧ Bare b!"u" := by
  refine ⟨⟨⟨?_, by decide⟩, by decide⟩, ⟨⟨⟨112, [], rfl, by unfold NameStartByte; decide⟩, by unfold NameByte; decide⟩,
    by decide, by decide⟩, by decide, by decide⟩
  intro a ha
  simp only [exHole, TagHole.fill, List.nil_append, List.mem_singleton] at ha
  subst ha
  refine ⟨by decide, by decide, by simp only [AttributeName]; decide, by decide, fun w hw => .inr (.inl ?_)⟩
  cases hw
  exact ⟨by decide, by decide⟩

example (u : Uni) (cs : Bool) : EndsInContent u cs [] := ⟨[], [], rfl, by decide, .inl rfl⟩

example (u : Uni) (cs : Bool) :
    (knownValues (exNamesEnv u cs) exHole.name exHole.key).map (·.name) = [b!"c"] ∧
    (parse u cs [] b!"<p a=u>" >>= fun roots => doComplete (exNamesEnv u cs) (.ref b!"<p a=u>") ⟨0, 6⟩ roots).map edits =
      .ok [(b!"c", some ⟨⟨⟨0, 5⟩, ⟨0, 6⟩⟩, b!"\"c\""⟩)] ∧
    applyEdits (.ref b!"<p a=u>") [⟨⟨⟨0, 5⟩, ⟨0, 6⟩⟩, b!"\"c\""⟩] = b!"<p a=\"c\">" := by
  refine ⟨by cases cs <;> krfl, by cases cs <;> krfl, by krfl⟩

/-- The value may be missing: `<p a=>` with the cursor behind `=`. -/
example : (exHole.fill []).Legal := by
  refine ⟨⟨?_, by decide⟩, by decide⟩
  intro a ha
  simp only [exHole, TagHole.fill, List.nil_append, List.mem_singleton] at ha
  subst ha
  refine ⟨by decide, by decide, by simp only [AttributeName]; decide, by decide, fun w hw => .inr (.inr ?_)⟩
  cases hw
  rfl

example (u : Uni) (cs : Bool) : (exHole.fill []).print ++ b!">" = b!"<p a=>" ∧
    (parse u cs [] b!"<p a=>" >>= fun roots => doComplete (exNamesEnv u cs) (.ref b!"<p a=>") ⟨0, 5⟩ roots).map edits =
      .ok [(b!"c", some ⟨⟨⟨0, 5⟩, ⟨0, 5⟩⟩, b!"\"c\""⟩)] := by
  refine ⟨by decide, by cases cs <;> krfl⟩

/-- In quotes the word around the cursor is replaced. -/
example (u : Uni) (cs : Bool) :
    (parse u cs [] b!"<p a='x y'>" >>= fun roots => doComplete (exNamesEnv u cs) (.ref b!"<p a='x y'>") ⟨0, 9⟩ roots).map edits =
      .ok [(b!"c", some ⟨⟨⟨0, 8⟩, ⟨0, 9⟩⟩, b!"c"⟩)] ∧
    applyEdits (.ref b!"<p a='x y'>") [⟨⟨⟨0, 8⟩, ⟨0, 9⟩⟩, b!"c"⟩] = b!"<p a='x c'>" ∧ WordOf b!"x " b!"y" [] 3 := by
  refine ⟨by cases cs <;> krfl, by krfl, by unfold WordOf BlankByte; decide⟩

end Html.Props
