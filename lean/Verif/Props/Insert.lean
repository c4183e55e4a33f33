import Verif.Proof.EditPanics
import Verif.Proof.Encoded
import Verif.Proof.Insert
import Verif.Proof.Settle
import Verif.Props.Parser

/-! # Complete pieces that are inserted between the tags of a document (C74) -/

namespace Html.Props
open Html Html.Spec

/-- C74: if complete elements, text, comments and doctypes are inserted where a text is in content, then their nodes are
put into the innermost element that is open there, behind the nodes in front of the place; the nodes behind it move, and
nothing else changes. -/
theorem C74_insert (u : Uni) (cs : Bool) (void : List Str) (pre y : Str) (items : List Item) (roots roots' : List Node)
    (hpre : EndsInContent u cs pre) (hl : AllLegal void items)
    (h : parse u cs void (pre ++ y) = .ok roots) (h' : parse u cs void (pre ++ printAll items ++ y) = .ok roots') :
    roots' = insertAll pre.length (printAll items).length (nodesAll pre.length items) roots :=
  parse_insert hpre hl h h'

/-- C74, for all UTF-8 texts: the text with the pieces in it is parsed exactly if the text without them is. -/
theorem C74_parsed (u : Uni) (cs : Bool) (void : List Str) (pre y : Str) (items : List Item) (cps cps' : List Nat)
    (hpre : EndsInContent u cs pre) (hl : AllLegal void items) (hu : Utf8 cps (pre ++ y))
    (hu' : Utf8 cps' (pre ++ printAll items ++ y)) :
    parse u cs void (pre ++ printAll items ++ y) =
      (parse u cs void (pre ++ y)).map (insertAll pre.length (printAll items).length (nodesAll pre.length items)) :=
  parse_map hu hu' ((insert_broken hpre hl hu').trans (content_broken hpre hu).symm)
    (fun roots roots' h h' => C74_insert u cs void pre y items roots roots' hpre hl h h')

/-- C74: so replacing text, comments and doctypes between tags by others changes offsets only. -/
theorem C74_inert (u : Uni) (cs : Bool) (void : List Str) (pre y : Str) (old new : List Item) (roots roots1 roots2 : List Node)
    (hpre : EndsInContent u cs pre) (h1 : AllLegal void old) (h2 : AllLegal void new) (h3 : ∀ it ∈ old, it.isInert)
    (h4 : ∀ it ∈ new, it.isInert) (h : parse u cs void (pre ++ y) = .ok roots)
    (h5 : parse u cs void (pre ++ printAll old ++ y) = .ok roots1)
    (h6 : parse u cs void (pre ++ printAll new ++ y) = .ok roots2) : outlines roots2 = outlines roots1 := by
  rw [C74_insert u cs void pre y old roots roots1 hpre h1 h h5, C74_insert u cs void pre y new roots roots2 hpre h2 h h6,
    nodesAll_inert h3, nodesAll_inert h4, outlines_insert, outlines_insert]

/-- C74: so typing text between tags changes offsets only. -/
theorem C74_typing (u : Uni) (cs : Bool) (void : List Str) (pre t t' y : Str) (a b b' c : List Nat)
    (hpre : EndsInContent u cs pre) (ht : 60 ∉ t) (ht' : 60 ∉ t') (ha : Utf8 a pre) (hb : Utf8 b t) (hb' : Utf8 b' t')
    (hc : Utf8 c y) :
    (parse u cs void (pre ++ t' ++ y)).map outlines = (parse u cs void (pre ++ t ++ y)).map outlines := by
  obtain ⟨d, hd⟩ := Enc.append ⟨a, ha⟩ ⟨c, hc⟩
  have key : ∀ (x : Str) (k : List Nat), 60 ∉ x → Utf8 k x →
      (parse u cs void (pre ++ x ++ y)).map outlines = (parse u cs void (pre ++ y)).map outlines := by
    intro x k hx hk
    have e : printAll [.text x] = x := by simp [printAll, Item.print]
    obtain ⟨d', hd'⟩ := Enc.append (Enc.append ⟨a, ha⟩ ⟨k, hk⟩) ⟨c, hc⟩
    have h := C74_parsed u cs void pre y [.text x] d d' hpre ⟨hx, trivial⟩ hd (by rw [e]; exact hd')
    rw [e, nodesAll_inert (by simp [Item.isInert])] at h
    rw [h]
    cases parse u cs void (pre ++ y) with
    | error e => rfl
    | ok l => simp only [Except.map, outlines_insert]
  rw [key t' b' ht' hb', key t b ht hb]

/-- Behind the text in `<p><i></i>a`. -/
theorem exEndsInContent (u : Uni) (cs : Bool) : EndsInContent u cs b!"<p><i></i>a" :=
  ⟨b!"<p><i></i>", b!"a", by decide, by decide, .inr ⟨[⟨.StartTagOpen, 0, 1, none, .AfterOpeningStartTag⟩,
      ⟨.StartTag, 1, 2, none, .WithinTag⟩, ⟨.StartTagClose, 2, 3, none, .WithinContent⟩,
      ⟨.StartTagOpen, 3, 4, none, .AfterOpeningStartTag⟩, ⟨.StartTag, 4, 5, none, .WithinTag⟩,
      ⟨.StartTagClose, 5, 6, none, .WithinContent⟩, ⟨.EndTagOpen, 6, 8, none, .AfterOpeningEndTag⟩,
      ⟨.EndTag, 8, 9, none, .WithinEndTag⟩],
    ⟨.EndTagClose, 9, 10, none, .WithinContent⟩,
    ⟨⟨[60, 112, 62, 60, 105, 62, 60, 47, 105, 62], by decide, rfl⟩, by cases cs <;> krfl, by decide, by decide⟩, rfl⟩⟩

/-- The elements of `exItems` become children of the `p`, between the `i` and the `b`. -/
example : returns (parse exUni false [b!"br"] (b!"<p><i></i>a" ++ b!"b<b></b></p><q>")) (fun roots =>
    decide ((insertAll 11 (printAll exItems).length (nodesAll 11 exItems) roots).map
      (fun n => (n.tag, n.start, n.stop, n.children.map (·.start))) =
        [(some b!"p", 0, 173, [3, 11, 162]), (some b!"q", 173, 176, [])]) &&
    decide (roots.map (fun n => (n.tag, n.start, n.stop, n.children.map (·.start))) =
        [(some b!"p", 0, 23, [3, 12]), (some b!"q", 23, 26, [])])) = true := by
  decide +kernel

/-- Typing `é` in front of a tag that cannot be parsed: the texts are UTF-8 and both parses panic. -/
example (u : Uni) (cs : Bool) :
    Utf8 [60, 112, 62, 60, 105, 62, 60, 47, 105, 62, 97] b!"<p><i></i>a" ∧ Utf8 [233] b!"é" ∧
    Utf8 [60, 100, 105, 118, 32, 160, 62] b!"<div \u00a0>" ∧
    parse u cs [] (b!"<p><i></i>a" ++ b!"<div \u00a0>") = .error .slice ∧
    parse u cs [] (b!"<p><i></i>a" ++ b!"é" ++ b!"<div \u00a0>") = .error .slice :=
  ⟨⟨by decide, rfl⟩, ⟨by decide, rfl⟩, ⟨by decide, rfl⟩, by cases cs <;> krfl, by cases cs <;> krfl⟩

/-- The pieces have to be complete: an end tag closes an element around it. -/
theorem C74_needs_complete (u : Uni) (cs : Bool) :
    parse u cs [] (b!"<p>" ++ b!"<i></i></p>") = .ok [⟨some b!"p", 0, 14, [⟨some b!"i", 3, 10, [], true, some 6, some 6, []⟩], true, some 3, some 10, []⟩] ∧
    parse u cs [] (b!"<p>" ++ b!"</p>" ++ b!"<i></i></p>") = .ok
      [⟨some b!"p", 0, 7, [], true, some 3, some 3, []⟩, ⟨some b!"i", 7, 14, [], true, some 10, some 10, []⟩] := by
  constructor <;> cases cs <;> krfl

/-- And the place has to be in content: in a comment nothing is inserted. -/
theorem C74_needs_content (u : Uni) (cs : Bool) :
    parse u cs [] (b!"<!--" ++ b!"<i></i>" ++ b!"-->") = .ok [] := by
  cases cs <;> krfl

end Html.Props
