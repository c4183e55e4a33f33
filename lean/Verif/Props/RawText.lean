import Verif.Props.Scanner
import Verif.Proof.RawOwner
import Verif.Proof.Concat

/-!
# The content of scripts and style sheets (C10, C73)

`ScriptBody`, `StyleBody`, `ClosesTag` and `rawContent` are specified in `Spec.RawText`.
-/

namespace Html.Props
open Html Html.Spec

/-! ### C10 -/

/-- C10: a script ends at the one place `ScriptBody` says, a style sheet at the one place `StyleBody` says. -/
theorem C10_raw_text_end (c : Cfg) (s : Sc) (ts : List Tok) (h : tokens c s = .ok ts) : ∀ t ∈ ts,
    (t.type = .Script → ∀ e, ScriptBody c.src t.offset e ↔ e = t.stop) ∧
    (t.type = .Styles → ∀ e, StyleBody c.src t.offset e ↔ e = t.stop) := by
  intro t ht
  obtain ⟨s2, hr, _⟩ := tokens_run h
  obtain ⟨s0, s1, hst, _, rfl⟩ := hr.mem ht
  rw [show s1.tok.offset = s0.pos from hst.offset_eq]
  refine ⟨fun h e => ?_, fun h e => ?_⟩
  · have hb := scriptToken_body hst h
    exact ⟨fun he => scriptBody_unique he hb, fun he => by rw [he]; exact hb⟩
  · have hb := styleToken_body hst h
    exact ⟨fun he => styleBody_unique he hb, fun he => by rw [he]; exact hb⟩

/-- C10: the case of the end tag matters, also for a scanner that is not case sensitive. -/
theorem C10_case_matters (u : Uni) (ps : Bool) :
    asciiLower b!"<script>a</SCRIPT>b" = b!"<script>a</script>b" ∧
    returns (tokens ⟨u, b!"<script>a</SCRIPT>b", ps, false⟩ (.new 0 .WithinContent))
      (fun ts => TT.EndTag ∉ ts.map Tok.type) = true ∧
    returns (tokens ⟨u, b!"<script>a</script>b", ps, false⟩ (.new 0 .WithinContent))
      (fun ts => TT.EndTag ∈ ts.map Tok.type) = true := by
  cases ps <;> exact ⟨by krfl, by krfl, by krfl⟩

/-- C10: an end tag with a longer name ends a script as well: what follows is read as HTML. -/
theorem C10_longer_name_ends_script (u : Uni) (cs : Bool) :
    returns (parse u cs [] b!"<script></scriptx><b></script>")
      (fun ns => ns.map (fun n => (n.tag, n.children.map Node.tag)) = [(some b!"script", [some b!"b"])]) = true := by
  cases cs <;> krfl

/-- An end tag in a script within a comment is content; the one behind it is not. -/
example : returns (tokens (exCfg b!"<script><!--<script></script>--></script>") (.new 0 .WithinContent))
    (fun ts => (ts.filter (·.type = .Script)).map (fun t => (t.offset, t.stop)) = [(8, 32)]) = true := by decide +kernel

example : returns (tokens (exCfg b!"<style>a</b></style>") (.new 0 .WithinContent))
    (fun ts => (ts.filter (·.type = .Styles)).map (fun t => (t.offset, t.stop)) = [(7, 12)]) = true := by decide +kernel

/-! ### C73 -/

/-- C73: behind a start tag whose content is raw stands that content, as long as C10 says; behind every other start
tag there is no such token. -/
theorem C73_content_of_start_tag (c : Cfg) (o : Nat) (ts a post tag : List Tok) (cl : Tok) (ho : o ≤ c.src.length)
    (h : tokens c (.new o .WithinContent) = .ok ts) (hts : ts = a ++ cl :: post) (hc : ClosesTag (a ++ [cl]) tag) :
    (∀ k, rawContent c.uni c.caseSensitive c.src tag = some k →
      ∃ e, RawBody k c.src cl.stop e ∧ BeginsWith k cl.stop e post) ∧
    (rawContent c.uni c.caseSensitive c.src tag = none → ∀ t ∈ post.head?, t.type ≠ .Script ∧ t.type ≠ .Styles) := by
  obtain ⟨s2, hr, hl⟩ := tokens_run h
  rw [hts, show a ++ cl :: post = (a ++ [cl]) ++ post by simp] at hr
  obtain ⟨s1, h1, h2⟩ := hr.split
  have hh := h1.ownerHist (OwnerHist.init o)
  rw [List.nil_append] at hh
  have hst := hh.behind tag hc
  have hpos : s1.pos = cl.stop := congrArg Tok.stop h1.last
  refine ⟨fun k hk => ?_, fun hk t ht => ?_⟩
  · rw [hk] at hst
    rw [← hpos]
    exact rawState_begins (rawContent_cases hk) hst (h1.contiguous ho).2.2.1 h2 hl
  · rw [hk] at hst
    cases h2 with
    | nil => simp at ht
    | @cons _ s3 _ ts' hsc hne hr' =>
      simp at ht
      rw [← ht]
      refine ⟨fun h => ?_, fun h => ?_⟩
      · have := ((scan_step hsc).rawToken (.inl h)).2
        rw [hst, show s3.tokenType = .Script from h] at this
        cases this
      · have := ((scan_step hsc).rawToken (.inr h)).2
        rw [hst, show s3.tokenType = .Styles from h] at this
        cases this

/-- C73: every script and every style sheet stands directly behind such a start tag. -/
theorem C73_raw_content_only_there (c : Cfg) (o : Nat) (ts a post : List Tok) (t : Tok)
    (h : tokens c (.new o .WithinContent) = .ok ts) (hts : ts = a ++ t :: post) (ht : t.type = .Script ∨ t.type = .Styles) :
    ∃ tag, ClosesTag a tag ∧ rawContent c.uni c.caseSensitive c.src tag = some t.type := by
  obtain ⟨s2, hr, hl⟩ := tokens_run h
  rw [hts] at hr
  obtain ⟨s1, h1, h2⟩ := hr.split
  have hh := h1.ownerHist (OwnerHist.init o)
  rw [List.nil_append] at hh
  cases h2 with
  | @cons _ s3 _ ts' hsc hne hr' =>
    obtain ⟨k1, k2⟩ := (scan_step hsc).rawToken ht
    have : s1.state = .WithinScriptContent ∨ s1.state = .WithinStyleContent := by
      rcases ht with h | h
      · exact .inl (by rw [k2, show s3.tokenType = .Script from h]; rfl)
      · exact .inr (by rw [k2, show s3.tokenType = .Styles from h]; rfl)
    obtain ⟨tag, htag⟩ := hh.raw k1 this
    refine ⟨tag, htag, ?_⟩
    have hb := hh.behind tag htag
    rw [k2] at hb
    show _ = some s3.tokenType
    revert hb
    cases hrc : rawContent c.uni c.caseSensitive c.src tag with
    | none => rcases ht with h | h <;> rw [show s3.tokenType = _ from h] <;> intro hb <;> cases hb
    | some k =>
      rcases rawContent_cases hrc with rfl | rfl <;> rcases ht with h | h <;> rw [show s3.tokenType = _ from h] <;>
        intro hb <;> first | rfl | cases hb

/-- C73: the tokens of the start tag are determined by the tokens before the content. -/
theorem C73_tag_unique (ts tag tag' : List Tok) (h : ClosesTag ts tag) (h' : ClosesTag ts tag') : tag = tag' :=
  closesTag_unique h h'

/-- C73: any value of `type` that is not empty makes the content of a script HTML, even `text/javascript`; the text of
the script then has elements. -/
theorem C73_typed_script_is_html (u : Uni) (cs : Bool) :
    returns (parse u cs [] b!"<script>a<b</script>")
      (fun ns => ns.map (fun n => (n.tag, n.children.map Node.tag)) = [(some b!"script", [])]) = true ∧
    returns (parse u cs [] b!"<script type='text/javascript'>a<b</script>")
      (fun ns => ns.map (fun n => (n.tag, n.children.map Node.tag)) = [(some b!"script", [some b!"b"])]) = true := by
  cases cs <;> exact ⟨by krfl, by krfl⟩

/-- The start tag of the example: its tokens, and what they say. -/
example : returns (tokens (exCfg b!"<script id=a type=''>x</script>") (.new 0 .WithinContent))
    (fun ts => (ts.map Tok.type).take 12 = [.StartTagOpen, .StartTag, .Whitespace, .AttributeName, .DelimiterAssign,
        .AttributeValue, .Whitespace, .AttributeName, .DelimiterAssign, .AttributeValue, .StartTagClose, .Script] ∧
      rawContent (exCfg []).uni false b!"<script id=a type=''>x</script>" ((ts.drop 1).take 9) = some .Script) = true := by
  decide +kernel

example : returns (tokens (exCfg b!"<script type=a></script>") (.new 0 .WithinContent))
    (fun ts => rawContent (exCfg []).uni false b!"<script type=a></script>" ((ts.drop 1).take 5) = none) = true := by
  decide +kernel

end Html.Props
