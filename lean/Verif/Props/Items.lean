import Verif.Proof.Items
import Verif.Props.LanguageFacts
import Verif.Props.Proposals

/-!
# What proposals look like (C85)
-/

namespace Html.Props
open Html Spec

/-- **C85.** Every proposal of `do_complete` that is not the work of a participant is one of nine kinds (tag, end
tag, attribute, `data-` attribute, value, end tag of an element, end tag behind a start tag, document type,
character reference) with the label, icon, documentation, filter text, inserted text and format for it. -/
theorem C85_proposals (e : CompEnv) (d : TextDoc) (position : Pos) (roots : List Node) (r : List CompItem)
    (hr : doComplete e d position roots = .ok r) : ∀ i ∈ r, FromParticipant e i ∨ Proposal e i := by
  unfold doComplete at hr
  simp only at hr
  split at hr
  · cases hr; intro i hi; cases hi
  · obtain ⟨s, _, h2⟩ := bind_ok hr
    exact good_loop (x := ⟨e, d, position, _, _, _, roots⟩) h2

/-- A provider with documentation, for a client without Markdown. -/
def exDocsEnv (u : Uni) (cs : Bool) : CompEnv :=
  { exComp with
    uni := u, caseSensitive := cs, supportsMarkdown := false, entities := [(b!"lt;", b!"<"), (b!"lt", b!"<")]
    providers := [{
      id := b!"x", isApplicable := fun l => l == b!"html"
      provideTags := [⟨b!"p", some (.str b!"A paragraph."), [], some [⟨b!"A", b!"u"⟩, ⟨b!"B", b!"v"⟩], none⟩]
      provideAttributes := fun _ _ => [⟨b!"class", some (.markup b!"Names."), none, none, some [⟨b!"A", b!"u"⟩]⟩,
        ⟨b!"onclick", none, some b!"handler", none, none⟩]
      provideValues := fun _ _ => [⟨b!"c", none, some [⟨b!"A", b!"u"⟩, ⟨b!"B", b!"v"⟩]⟩] }] }

/-- The first `n` proposals in a text of one line. -/
def exProposals (e : CompEnv) (text : Str) (o n : Nat) : R (List CompItem) := do
  let roots ← parse e.uni e.caseSensitive [] text
  let r ← doComplete e (exLine text) ⟨0, o⟩ roots
  .ok (r.take n)

/-- Attributes: a description with a reference, and a handler. -/
example : returns (exProposals (exDocsEnv exUni false) b!"<p >" 3 2) (fun r => decide (r =
    [⟨b!"class", some .value, some (.markup ⟨false, b!"Names.\n\nA: u"⟩), none,
        some ⟨⟨⟨0, 3⟩, ⟨0, 3⟩⟩, b!"class=\"$1\""⟩, some true, false⟩,
      ⟨b!"onclick", some .function, none, none, some ⟨⟨⟨0, 3⟩, ⟨0, 3⟩⟩, b!"onclick=\"$1\""⟩, some true, true⟩])) = true := by
  decide +kernel

/-- A value with references only. -/
example : returns (exProposals (exDocsEnv exUni false) b!"<p a=>" 5 2) (fun r => decide (r =
    [⟨b!"c", some .unit, some (.markup ⟨false, b!"A: u\nB: v"⟩), some b!"\"c\"",
        some ⟨⟨⟨0, 5⟩, ⟨0, 5⟩⟩, b!"\"c\""⟩, some false, false⟩])) = true := by
  decide +kernel

/-- A character reference. -/
example : returns (exProposals (exDocsEnv exUni false) b!"<p>&l" 5 2) (fun r => decide (r =
    [⟨b!"&lt;", some .keyword, some (.str b!"Character entity representing '<"), none,
        some ⟨⟨⟨0, 3⟩, ⟨0, 5⟩⟩, b!"&lt;"⟩, some false, false⟩])) = true := by
  decide +kernel

/-- **C85 finding:** the documentation of a start tag is Markdown even if the client does not support it; that of
an end tag is not. -/
theorem C85_markdown_for_tags (u : Uni) (cs : Bool) :
    exProposals (exDocsEnv u cs) b!"<p" 2 2 = .ok
      [⟨b!"p", some .property, some (.markup ⟨true, b!"A paragraph.\n\n[A](u) | [B](v)"⟩), none,
        some ⟨⟨⟨0, 1⟩, ⟨0, 2⟩⟩, b!"p"⟩, some false, false⟩] ∧
    exProposals (exDocsEnv u cs) b!"<p></p></" 9 2 = .ok
      [⟨b!"/p", some .property, some (.markup ⟨false, b!"A paragraph.\n\nA: u\nB: v"⟩), none, none, none, false⟩] ∧
    (exDocsEnv u cs).supportsMarkdown = false := by
  cases cs <;> exact ⟨by krfl, by krfl, rfl⟩

/-- **C62, C40.** What completion takes for void elements: the names that the providers for the language of the
document mark as void. -/
theorem C62_void_iff (e : CompEnv) (tag : Str) : tag ∈ e.void ↔ VoidName e tag := by
  have := C43_is_void_iff ⟨e.providers, e.caseSensitive⟩ e.languageId tag
  unfold isVoidElement at this
  rw [List.contains_iff_mem] at this
  exact this

/-- Providers for other languages do not count. -/
example : VoidName { exComp with providers := [{ exNames b!"html" with provideTags := [⟨b!"x", none, [], none, some true⟩] }] } b!"x" ∧
    ¬ VoidName { exComp with providers := [{ exNames b!"css" with provideTags := [⟨b!"x", none, [], none, some true⟩] }] } b!"x" := by
  refine ⟨⟨_, List.mem_cons_self, rfl, _, List.mem_cons_self, rfl, rfl⟩, ?_⟩
  rintro ⟨p, hp, h, _⟩
  cases List.mem_singleton.1 hp
  exact absurd h (by decide)

end Html.Props
