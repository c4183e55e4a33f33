import Verif.Proof.LetterCaseParse
import Verif.Proof.RenamedText
import Verif.Props.Scanner
import Verif.Props.Parser

/-!
# Upper and lower case (C87)
-/

namespace Html.Props
open Spec

/-- The configurations of two texts that differ in letter case only. -/
theorem alike_of {u : Uni} {pseudo : Bool} {src src' : Str} (hu : LowersLetters u) (h : SameLetters src src')
    (hr : SameRawTags src src') : Alike ⟨u, src, pseudo, false⟩ ⟨u, src', pseudo, false⟩ :=
  ⟨rfl, rfl, rfl, rfl, hu, h, hr⟩

/-- **C87.** A scanner that ignores the case finds the same tokens in two texts that differ in the case of letters only. -/
theorem C87_tokens (u : Uni) (pseudo : Bool) (src src' : Str) (o : Nat) (st : SS) (hu : LowersLetters u)
    (h : SameLetters src src') (hr : SameRawTags src src') :
    tokens ⟨u, src', pseudo, false⟩ (.new o st) = tokens ⟨u, src, pseudo, false⟩ (.new o st) :=
  alike_tokens (alike_of hu h hr) o st

/-- **C87.** The trees are the same up to the spelling of the names, if the spelling of no tag decides whether its element
is void. -/
theorem C87_tree (u : Uni) (void : List Str) (src src' : Str) (roots : List Node) (hu : LowersLetters u)
    (h : SameLetters src src') (hr : SameRawTags src src')
    (hv : ∀ ts, tokens (parserCfg u false src) (.new 0 .WithinContent) = .ok ts → ∀ t ∈ ts, t.type = .StartTag →
      (bytesIn src' t.offset t.stop ∈ void ↔ bytesIn src t.offset t.stop ∈ void))
    (hp : parse u false void src = .ok roots) :
    ∃ roots', parse u false void src' = .ok roots' ∧ skeletons roots' = skeletons roots := by
  have ha : Alike (parserCfg u false src) (parserCfg u false src') := alike_of hu h hr
  obtain ⟨ts, hts⟩ := tokens_of_parse hp
  have hv' : ∀ t ∈ ts, VoidAlike void (parserCfg u false src) (parserCfg u false src') t := by
    intro t ht hst
    rw [Bool.eq_iff_iff, List.contains_iff_mem, List.contains_iff_mem]
    exact hv ts hts t ht hst
  rw [← parse_tokens] at hts
  have hloop := alike_parseLoop ha (2 * src.length + 1) (p := .init src.length) (p' := .init src'.length)
    ⟨⟨rfl, rfl, (same_length h).symm, rfl, rfl, rfl, rfl, rfl⟩, trivial, rfl, rfl⟩ (.new 0 .WithinContent) none rfl ts hts hv'
  have hno := C11_no_unwrap_fails u false void src'
  unfold parse at hp hno ⊢
  obtain ⟨p, hp1, hp⟩ := bind_ok hp
  rw [hp1] at hloop
  have hty : ty (.new 0 .WithinContent) none = .new 0 .WithinContent := rfl
  rw [hty, same_length h] at hloop
  injection hp with hp
  cases h2 : parseLoop (parserCfg u false src') void (2 * src'.length + 1) (.init src'.length) (.new 0 .WithinContent) with
  | error e =>
    rw [h2] at hloop
    exact absurd (hno e (by show (parseLoop _ _ _ _ _ >>= _) = _; rw [h2]; rfl)) hloop
  | ok p' =>
    rw [h2] at hloop
    have hf := NA.finishAll src'.length hloop.cur hloop.parents
    rw [← hp, same_length h]
    refine ⟨_, ?_, hf.kids⟩
    show (parseLoop _ _ _ _ _ >>= _) = _
    rw [h2]
    rfl

/-- If none of the tags is in the text, however written, the condition on them holds. -/
theorem C87_without_raw_tags (src src' : Str) (h : SameLetters src src')
    (hno : ∀ o, ∀ lit ∈ [b!"<script", b!"</script", b!"</style"], lit.isPrefixOf ((asciiLower src).drop o) = false) :
    SameRawTags src src' := by
  have key : ∀ (s : Str) (o : Nat) (lit : Str), asciiLower lit = lit → lit.isPrefixOf ((asciiLower s).drop o) = false →
      lit.isPrefixOf (s.drop o) = false := by
    intro s o lit hl hf
    rw [Bool.eq_false_iff] at hf ⊢
    intro hp
    apply hf
    rw [List.isPrefixOf_iff_prefix] at hp ⊢
    obtain ⟨r, hr⟩ := hp
    refine ⟨asciiLower r, ?_⟩
    unfold asciiLower at hl ⊢
    rw [← List.map_drop, ← hr, List.map_append, hl]
  have hlow : ∀ lit ∈ [b!"<script", b!"</script", b!"</style"], asciiLower lit = lit := by decide
  intro o lit hlit
  rw [key src o lit (hlow lit hlit) (hno o lit hlit),
    key src' o lit (hlow lit hlit) (by rw [← show asciiLower src = asciiLower src' from h]; exact hno o lit hlit)]

/-- Texts that are not longer than `n`: it suffices to look at the offsets up to there. -/
theorem sameRawTags_of (a b : Str) (n : Nat) (ha : a.length ≤ n) (hb : b.length ≤ n)
    (h : ∀ o, o < n → ∀ lit ∈ [b!"<script", b!"</script", b!"</style"],
      lit.isPrefixOf (a.drop o) = lit.isPrefixOf (b.drop o)) : SameRawTags a b := by
  intro o lit hlit
  by_cases ho : o < n
  · exact h o ho lit hlit
  · rw [List.drop_of_length_le (by omega), List.drop_of_length_le (by omega)]

/-- A table that lower-cases ASCII letters only. -/
def exLower : Uni := ⟨fun _ => false, asciiLower⟩

theorem exLower_lowers : LowersLetters exLower := fun _ _ h => h

/-- The case of the tags in `<UL><Li>x</LI></ul>` and of the doctype does not matter. -/
example : ∃ roots', parse exLower false [] b!"<!DOCTYPE html><UL CLASS=a><Li>x</LI></ul>" = .ok roots' ∧
    skeletons roots' = [⟨some b!"ul", 15, 42, [⟨some b!"li", 27, 37, [], true, some 31, some 32, []⟩], true, some 27, some 37, []⟩] :=
  C87_tree exLower [] b!"<!doctype html><ul class=a><li>x</li></ul>" b!"<!DOCTYPE html><UL CLASS=a><Li>x</LI></ul>"
    [⟨some b!"ul", 15, 42, [⟨some b!"li", 27, 37, [], true, some 31, some 32, []⟩], true, some 27, some 37,
      [(b!"class", ⟨some b!"a", 19⟩)]⟩]
    exLower_lowers (by unfold SameLetters; decide) (sameRawTags_of _ _ 42 (by decide) (by decide) (by decide))
    (fun _ _ _ _ _ => by simp) (by krfl)

/-- **C87 fails** for the end tags of script and style elements: `</STYLE>` does not end the content of `<style>`. -/
theorem C87_needs_raw_tags (u : Uni) :
    SameLetters b!"<style></style><p>" b!"<style></STYLE><p>" ∧
    parse u false [] b!"<style></style><p>" = .ok [⟨some b!"style", 0, 15, [], true, some 7, some 7, []⟩,
      ⟨some b!"p", 15, 18, [], false, some 18, none, []⟩] ∧
    parse u false [] b!"<style></STYLE><p>" = .ok [⟨some b!"style", 0, 18, [], false, some 7, none, []⟩] :=
  ⟨by unfold SameLetters; decide, by krfl, by krfl⟩

/-- **C87 fails** for void elements: they are void in the spelling of the data only. -/
theorem C87_needs_void_spelling (u : Uni) :
    SameLetters b!"<br><p>" b!"<BR><p>" ∧
    parse u false [b!"br"] b!"<br><p>" = .ok [⟨some b!"br", 0, 4, [], true, some 4, none, []⟩,
      ⟨some b!"p", 4, 7, [], false, some 7, none, []⟩] ∧
    parse u false [b!"br"] b!"<BR><p>" = .ok [⟨some b!"BR", 0, 7, [⟨some b!"p", 4, 7, [], false, some 7, none, []⟩], false,
      some 4, none, []⟩] :=
  ⟨by unfold SameLetters; decide, by krfl, by krfl⟩

/-- With case-sensitive names the spelling matters: `</A>` does not close `<a>`. -/
example (u : Uni) : parse u true [] b!"<a></A>" = .ok [⟨some b!"a", 0, 7, [], false, some 3, none, []⟩] := by krfl

end Html.Props
