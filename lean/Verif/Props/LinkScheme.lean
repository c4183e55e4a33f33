import Verif.Proof.LinkScheme
import Verif.Props.Links

/-!
# Kinds of references in document links (C47)
-/

namespace Html.Props
open Html Spec

/-- **C47.** A reference with a scheme other than `http`, `https` and `file` is no link (`mailto:x`,
`git+ssh://h`). -/
theorem C47_other_scheme (e : LinkEnv) (d : TextDoc) (p : List Tok × Tok) (w s rest : Str)
    (hv : bare (text d.text p.2) = w ++ s ++ b!":" ++ rest)
    (hw : ∀ b ∈ w, b = 32 ∨ b = 9 ∨ b = 10 ∨ b = 12 ∨ b = 13) (hs : SchemeName s)
    (hl : asciiLower s ∉ [b!"http", b!"https", b!"file"]) : linkOf e d p = none := by
  apply C47_no_link
  right
  refine ⟨s, ?_, by rw [toLower_name hs]; exact hl⟩
  rw [hv]
  have has := SchemeName.ascii hs
  have hs2 := hs
  obtain ⟨a, k, rfl, _, _⟩ := hs2
  have := has a (by simp)
  have h1 := trimStart_white (w := w) (x := k ++ 58 :: rest) hw this.1 this.2.1
  rw [show w ++ (a :: k) ++ b!":" ++ rest = w ++ a :: (k ++ 58 :: rest) by simp, h1]
  exact schemaOf_name hs

example : bare b!"' git+ssh://h'" = b!" " ++ b!"git+ssh" ++ b!":" ++ b!"//h" ∧
    SchemeName b!"git+ssh" ∧ asciiLower b!"git+ssh" ∉ [b!"http", b!"https", b!"file"] :=
  ⟨by decide, ⟨103, b!"it+ssh", rfl, by decide, by decide⟩, by decide⟩

/-- **C47.** A reference with the scheme `http`, `https` or `file` (in any letter case, behind blanks) is
its own target; the query and the fragment of a file are left out. -/
theorem C47_absolute (e : LinkEnv) (d : TextDoc) (links : List DocLink) (ts pre post : List Tok) (t : Tok)
    (w s rest target : Str) (h : findDocumentLinks e d = .ok links) (hts : linkTokens e d = .ok ts)
    (hsplit : ts = pre ++ t :: post) (hp : isPathValue e d.text (pre, t) = true)
    (hb : ¬ awaitsBase e d.text pre) (hc : bare (text d.text t) = w ++ s ++ b!":" ++ rest)
    (hw : ∀ b ∈ w, b = 32 ∨ b = 9 ∨ b = 12) (hs : SchemeName s)
    (hl : asciiLower s = b!"http" ∨ asciiLower s = b!"https" ∨ asciiLower s = b!"file")
    (hnl : 10 ∉ rest ∧ 13 ∉ rest) (h92 : 92 ∉ s ++ b!":" ++ rest)
    (hpl : Plain (s ++ b!":" ++ rest) target)
    (hv : e.lib.valid (s ++ b!":" ++ rest) = true) (hvt : e.lib.valid target = true)
    (hlocal : ¬ (e.uri ++ b!"#") <+: s ++ b!":" ++ rest) :
    ⟨valueRange d t, some target⟩ ∈ links := by
  have hr : refersTo e (baseAt e d.text pre) (text d.text t) = some (some target) := by
    unfold refersTo
    rw [hc, if_pos, workspaceUrl_scheme hw hs hl hnl]
    · dsimp only
      rw [cleanUri_plain hpl h92 hv hvt hlocal]
      rfl
    · obtain ⟨a, k, rfl, ha, _⟩ := hs
      unfold validateRef
      have := anyChar_word (u := e.uni) w a (k ++ b!":" ++ rest) ha
      simpa using this
  have := validateRef_of_links h hts (p := (pre, t)) (mem_splits.2 ⟨post, hsplit⟩) hp hb hr
  have hft : finalTarget e d ts (some target) = some target := by
    unfold finalTarget
    dsimp only
    rw [if_neg]
    rw [List.isPrefixOf_iff_prefix]
    exact fun hh => hlocal (hh.trans (Plain.prefix hpl))
  rw [hft] at this
  exact this

example : Plain b!"file:///a/b?x=y#z" b!"file:///a/b" ∧ Plain b!"HTTPS://h/?x#y" b!"HTTPS://h/?x#y" ∧
    SchemeName b!"HTTPS" ∧ asciiLower b!"HTTPS" = b!"https" ∧
    returns (findDocumentLinks exLinkEnv (.ref b!"<a href=' FILE:x'><a href=file:///b?y><a href=file:///b#y>"))
      (fun l => l.map DocLink.target = [some b!"FILE:x", some b!"file:///b", some b!"file:///b"]) = true :=
  ⟨.inr ⟨b!"/a/b", b!"?x=y", b!"#z", by decide, by decide, by decide, .inr ⟨_, rfl, by decide, by decide⟩,
    .inr ⟨_, rfl, by decide⟩⟩, .inl ⟨rfl, by decide⟩, ⟨72, b!"TTPS", rfl, by decide, by decide⟩, by decide,
    by decide +kernel⟩

/-- **C47.** Only the part behind the last question mark of a file is left out: with a second question mark
in the query, the first part of the query stays in the target. -/
theorem C47_file_query_kept :
    returns (findDocumentLinks exLinkEnv (.ref b!"<a href=file:///a?b?c>"))
      (fun l => l.map DocLink.target = [some b!"file:///a?b"]) = true := by decide +kernel

/-- **C47.** A relative reference is resolved against the base of the document, if there is one, and
against the URI of the document otherwise. -/
theorem C47_relative (e : LinkEnv) (d : TextDoc) (links : List DocLink) (ts pre post : List Tok) (t : Tok)
    (w x url target : Str) (a : Nat) (h : findDocumentLinks e d = .ok links) (hts : linkTokens e d = .ok ts)
    (hsplit : ts = pre ++ t :: post) (hp : isPathValue e d.text (pre, t) = true)
    (hb : ¬ awaitsBase e d.text pre) (hc : bare (text d.text t) = w ++ a :: x)
    (hw : ∀ b ∈ w, b = 32 ∨ b = 9 ∨ b = 12) (ha : a < 128 ∧ isSpaceCP a = false ∧ a ≠ 35)
    (hsl : ¬ (b!"//") <+: a :: x) (hcol : 58 ∉ a :: x) (hnl : 10 ∉ x ∧ 13 ∉ x)
    (hword : validateRef e.uni (w ++ a :: x) = true)
    (hres : e.resolve (a :: x) ((baseAt e d.text pre).getD e.uri) = .ok (some url))
    (h92 : 92 ∉ url) (hpl : Plain url target)
    (hv : e.lib.valid url = true) (hvt : e.lib.valid target = true)
    (hlocal : ¬ (e.uri ++ b!"#") <+: url) :
    ⟨valueRange d t, some target⟩ ∈ links := by
  have hr : refersTo e (baseAt e d.text pre) (text d.text t) = some (some target) := by
    unfold refersTo
    rw [hc, if_pos hword, workspaceUrl_relative hw ha.1 ha.2.1 ha.2.2 hsl hcol hnl, hres]
    dsimp only
    rw [cleanUri_plain hpl h92 hv hvt hlocal]
    rfl
  have := validateRef_of_links h hts (p := (pre, t)) (mem_splits.2 ⟨post, hsplit⟩) hp hb hr
  have hft : finalTarget e d ts (some target) = some target := by
    unfold finalTarget
    dsimp only
    rw [if_neg]
    rw [List.isPrefixOf_iff_prefix]
    exact fun hh => hlocal (hh.trans (Plain.prefix hpl))
  rw [hft] at this
  exact this

/-- With a base element the reference is resolved against it, without one against the document. -/
example : returns (findDocumentLinks exLinkEnv (.ref b!"<base href=http://k/l/><a href=' c'>"))
      (fun l => l.map DocLink.target = [some b!"http://k/l/c"]) = true ∧
    returns (findDocumentLinks exLinkEnv (.ref b!"<a href=c>"))
      (fun l => l.map DocLink.target = [some b!"http://h/c"]) = true := by decide +kernel

end Html.Props
