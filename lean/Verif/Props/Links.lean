import Verif.Proof.LinkPanics
import Verif.Props.Scanner
import Verif.Props.Uri
import Verif.Spec.Position

/-!
# Document links (C47, C53, C54)
-/

namespace Html.Props

open Spec

/-- The tokens of the document. -/
def linkTokens (e : LinkEnv) (d : TextDoc) : R (List Tok) :=
  tokens ⟨e.uni, d.text, false, e.caseSensitive⟩ (.new 0 .WithinContent)

/-- A parser that accepts printable ASCII characters other than the excluded ones. -/
def asciiLib : UriLib :=
  ⟨fun s => s.all (fun b => 33 ≤ b && b ≤ 126 && !([34, 60, 62, 92, 94, 96, 123, 124, 125].contains b))⟩

/-- An environment for the examples, with the default document context. -/
def exLinkEnv : LinkEnv where
  uni := ⟨fun _ => false, id⟩
  caseSensitive := false
  lib := asciiLib
  uri := b!"http://h/a.html"
  resolve := asciiLib.resolveReference

/-- `p ∈ splits ts` means: the token `p.2` with the tokens `p.1` in front of it. -/
example (ts : List Tok) (p : List Tok × Tok) : p ∈ splits ts ↔ ∃ post, ts = p.1 ++ p.2 :: post := mem_splits

/-- **C47.** The links are in document order: their ranges are those of a subsequence of the tokens,
without the surrounding quotes.  Each of these tokens is the value of a path attribute. -/
theorem C47_links (e : LinkEnv) (d : TextDoc) (links : List DocLink) (h : findDocumentLinks e d = .ok links) :
    ∃ ts, ∃ vs : List Tok, linkTokens e d = .ok ts ∧ vs.Sublist ts ∧ links.map DocLink.range = vs.map (valueRange d) ∧
      ∀ t ∈ vs, t.type = .AttributeValue ∧ ∃ pre post tag attr, ts = pre ++ t :: post ∧
        tagAt e d.text pre = some tag ∧ attrAt e d.text pre = some attr ∧
        isPathAttribute tag attr = true := by
  obtain ⟨ts, hts, hl⟩ := findDocumentLinks_ok h
  refine ⟨ts, ((splits ts).filterMap (linkOf e d)).map Prod.fst, hts, ?_, ?_, ?_⟩
  · have h1 : ((splits ts).filterMap (linkOf e d)).map Prod.fst =
        ((splits ts).filter (fun p => (linkOf e d p).isSome)).map Prod.snd := by
      generalize splits ts = l
      induction l with
      | nil => rfl
      | cons p l ih =>
        cases hp : linkOf e d p with
        | none => rw [List.filterMap_cons_none hp, List.filter_cons_of_neg (by simp [hp])]; exact ih
        | some x =>
          rw [List.filterMap_cons_some hp, List.filter_cons_of_pos (by simp [hp]), List.map_cons, List.map_cons, ih]
          congr 1
          unfold linkOf at hp
          split at hp
          · obtain ⟨y, _, rfl⟩ := Option.map_eq_some_iff.1 hp
            rfl
          · cases hp
    rw [h1]
    have h2 : (splits ts).map Prod.snd = ts := by
      clear h1 hl hts
      induction ts with
      | nil => rfl
      | cons t ts ih => simp [splits, Function.comp_def, ih]
    conv => rhs; rw [← h2]
    exact List.filter_sublist.map _
  · rw [hl, List.map_map, List.map_map]
    rfl
  · intro t ht
    obtain ⟨x, hx, rfl⟩ := List.mem_map.1 ht
    obtain ⟨p, hp, hpx⟩ := List.mem_filterMap.1 hx
    unfold linkOf at hpx
    split at hpx
    · rename_i hc
      obtain ⟨y, _, rfl⟩ := Option.map_eq_some_iff.1 hpx
      obtain ⟨post, e1⟩ := mem_splits.1 hp
      have hv := hc.1
      unfold isPathValue at hv
      rw [Bool.and_eq_true, decide_eq_true_eq] at hv
      obtain ⟨h1, h2⟩ := hv
      refine ⟨h1, p.1, post, ?_⟩
      split at h2
      · rename_i tag attr htag hattr
        exact ⟨tag, attr, e1, htag, hattr, h2⟩
      · cases h2
    · cases hpx

/-- The link of `<a href='c'>` with its range. -/
example : returns (findDocumentLinks exLinkEnv (.ref b!"<a href='c'>")) (fun l => l =
    [⟨⟨⟨0, 9⟩, ⟨0, 10⟩⟩, some b!"http://h/c"⟩]) = true := by decide +kernel

/-- **C47.** Exactly which links are returned: one for every value of a path attribute that refers to
something, unless a `base` tag is still waiting for its reference.  Targets inside the document are
rewritten to the position of the id, or the document itself. -/
theorem C47_exact (e : LinkEnv) (d : TextDoc) (links : List DocLink) (h : findDocumentLinks e d = .ok links) :
    ∃ ts, linkTokens e d = .ok ts ∧
      links = ((splits ts).filterMap (linkOf e d)).map
        (fun x => ⟨valueRange d x.1, finalTarget e d ts x.2⟩) :=
  findDocumentLinks_ok h

/-- **C47.** A target inside the document is the document itself or the position of the last `id`
attribute with some value. -/
theorem C47_local_target (e : LinkEnv) (d : TextDoc) (links : List DocLink)
    (h : findDocumentLinks e d = .ok links) (hu : 92 ∉ e.uri) (link : DocLink) (hl : link ∈ links) (x : Str)
    (hx : link.target = some (e.uri ++ b!"#" ++ x)) :
    ∃ ts pre t post, linkTokens e d = .ok ts ∧ ts = pre ++ t :: post ∧ isIdValue e d.text (pre, t) = true ∧
      (∀ q ∈ splits ts, pre.length < q.1.length → isIdValue e d.text q = true →
        bare (text d.text q.2) ≠ bare (text d.text t)) ∧
      e.uri ++ b!"#" ++ x = slashes (positionUri e.uri (d.posAt t.offset)) := by
  obtain ⟨ts, hts, hl'⟩ := findDocumentLinks_ok h
  rw [hl'] at hl
  obtain ⟨y, hy, rfl⟩ := List.mem_map.1 hl
  dsimp only at hx
  unfold finalTarget at hx
  split at hx
  · cases hx
  · rename_i z _
    split at hx
    · rename_i hpre
      split at hx
      · rename_i o ho
        injection hx with hx
        unfold idOffset at ho
        obtain ⟨p, hp, rfl⟩ := Option.map_eq_some_iff.1 ho
        obtain ⟨l, hl2⟩ := List.getLast?_eq_some_iff.1 hp
        have hmem : p ∈ (splits ts).filter (fun p => isIdValue e d.text p &&
            bare (text d.text p.2) = z.drop (e.uri.length + 1)) := by rw [hl2]; simp
        obtain ⟨hm1, hm2⟩ := List.mem_filter.1 hmem
        rw [Bool.and_eq_true, decide_eq_true_eq] at hm2
        obtain ⟨post, hpost⟩ := mem_splits.1 hm1
        refine ⟨ts, p.1, p.2, post, hts, hpost, hm2.1, ?_, hx.symm⟩
        intro q hq hlen hid he
        have hq' : q ∈ (splits ts).filter (fun p => isIdValue e d.text p &&
            bare (text d.text p.2) = z.drop (e.uri.length + 1)) := by
          refine List.mem_filter.2 ⟨hq, ?_⟩
          rw [Bool.and_eq_true, decide_eq_true_eq]
          exact ⟨hid, by rw [he]; exact hm2.2⟩
        rw [hl2, List.mem_append, List.mem_singleton] at hq'
        have hpw : ∀ (ts : List Tok), (splits ts).Pairwise (fun a b => a.1.length < b.1.length) := by
          intro ts
          induction ts with
          | nil => exact List.Pairwise.nil
          | cons t ts ih =>
            unfold splits
            refine List.Pairwise.cons ?_ ?_
            · intro b hb
              obtain ⟨c, _, rfl⟩ := List.mem_map.1 hb
              simp
            · rw [List.pairwise_map]
              exact ih.imp (fun h => by simpa using h)
        rcases hq' with hq' | rfl
        · have := (hpw ts).sublist (List.filter_sublist (p := fun p => isIdValue e d.text p &&
            bare (text d.text p.2) = z.drop (e.uri.length + 1)))
          rw [hl2, List.pairwise_append] at this
          have := this.2.2 q hq' p (by simp)
          omega
        · omega
      · injection hx with hx
        exfalso
        have := congrArg List.length hx
        simp at this
    · rename_i hpre
      injection hx with hx
      exfalso
      apply hpre
      rw [hx, List.isPrefixOf_iff_prefix]
      exact List.prefix_append _ _

/-- **C47.** The fragment of a target inside the document is the line and the column of the start of
an id value, counted from one and written in decimal digits. -/
theorem C47_line_and_column (e : LinkEnv) (d : TextDoc) (links : List DocLink)
    (h : findDocumentLinks e d = .ok links) (hu : 92 ∉ e.uri) (link : DocLink) (hl : link ∈ links) (x : Str)
    (hx : link.target = some (e.uri ++ b!"#" ++ x)) :
    ∃ ts p l c, linkTokens e d = .ok ts ∧ p ∈ splits ts ∧ isIdValue e d.text p = true ∧
      x = l ++ b!"," ++ c ∧ Writes l ((d.posAt p.2.offset).line + 1) ∧
      Writes c ((d.posAt p.2.offset).character + 1) := by
  obtain ⟨ts, pre, t, post, hts, hs, hid, _, he⟩ := C47_local_target e d links h hu link hl x hx
  have hw1 := decimal_writes (n := (d.posAt t.offset).line + 1) (by omega)
  have hw2 := decimal_writes (n := (d.posAt t.offset).character + 1) (by omega)
  refine ⟨ts, (pre, t), _, _, hts, mem_splits.2 ⟨post, hs⟩, hid, ?_, hw1, hw2⟩
  rw [slashes_of_not_mem] at he
  · unfold positionUri at he
    simp only [List.append_assoc] at he
    have := List.append_cancel_left (List.append_cancel_left he)
    simpa only [List.append_assoc] using this
  · unfold positionUri
    simp only [List.mem_append, not_or]
    refine ⟨⟨⟨⟨hu, by decide⟩, fun hm => ?_⟩, by decide⟩, fun hm => ?_⟩
    · have := hw1.1 _ hm; omega
    · have := hw2.1 _ hm; omega

/-- `<a href=#b id=b>`: the target is the position of the value `b` of the id. -/
example : returns (findDocumentLinks exLinkEnv (.ref b!"<a href=#b id=b>")) (fun l => l =
    [⟨⟨⟨0, 8⟩, ⟨0, 10⟩⟩, some b!"http://h/a.html#1,15"⟩]) = true := by decide +kernel

/-- **C47.** A reference `#id` leads to the last element with that id, or to the document if there is
none. -/
theorem C47_fragment (e : LinkEnv) (d : TextDoc) (links : List DocLink) (ts pre post : List Tok) (t : Tok)
    (id : Str) (h : findDocumentLinks e d = .ok links) (hts : linkTokens e d = .ok ts)
    (hsplit : ts = pre ++ t :: post) (hp : isPathValue e d.text (pre, t) = true)
    (hb : ¬ awaitsBase e d.text pre) (hc : bare (text d.text t) = b!"#" ++ id)
    (hw : validateRef e.uni (b!"#" ++ id) = true) (hnl : 10 ∉ id ∧ 13 ∉ id)
    (h92 : 92 ∉ e.uri ++ b!"#" ++ id) (hv : e.lib.valid (e.uri ++ b!"#" ++ id) = true)
    (hq : (splitUri (e.uri ++ b!"#" ++ id)).query = none) :
    ⟨valueRange d t, some (match idOffset e d.text ts id with
      | some o => slashes (positionUri e.uri (d.posAt o))
      | none => e.uri)⟩ ∈ links := by
  have hcreate : e.lib.create (e.uri ++ b!"#" ++ id) = some (e.uri ++ b!"#" ++ id) := by
    unfold UriLib.create
    rw [slashes_of_not_mem h92, if_pos hv]
  have hr : refersTo e (baseAt e d.text pre) (text d.text t) = some (some (e.uri ++ b!"#" ++ id)) := by
    unfold refersTo
    rw [hc, if_pos hw]
    have hwu : workspaceUrl e (b!"#" ++ id) (baseAt e d.text pre) = .ok (some (e.uri ++ b!"#" ++ id)) := by
      have ht : trimStart (b!"#" ++ id) = b!"#" ++ id := trimStart_ascii (by decide) (by decide)
      unfold workspaceUrl
      have hj : isJavascript (b!"#" ++ id) = false := by
        unfold isJavascript
        rw [ht]
        have : (b!"#" ++ id).any (fun b => b == 10 || b == 13) = false := by
          rw [Bool.eq_false_iff]
          intro hh
          obtain ⟨b, hb, hb2⟩ := List.any_eq_true.1 hh
          simp at hb hb2
          rcases hb2 with rfl | rfl
          · simp at hb; exact hnl.1 hb
          · simp at hb; exact hnl.2 hb
        rw [this]
        rfl
      rw [hj, if_neg (by simp)]
      dsimp only
      rw [ht]
      have hsch : schemaOf e.uni (b!"#" ++ id) = none := by
        unfold schemaOf
        have : firstRunLen (isWordCP e.uni) (schemaChar e.uni) (b!"#" ++ id) = 0 := by
          simp [firstRunLen, codePoint, isWordCP, isWordAscii]
        dsimp only
        rw [this]
        simp
      rw [hsch]
      dsimp only
      rw [if_pos (by simp)]
      simp
    rw [hwu]
    dsimp only
    unfold cleanUri
    rw [hcreate]
    have hdq : dropQuery e.lib (e.uri ++ b!"#" ++ id) = .ok (e.uri ++ b!"#" ++ id) := by
      unfold dropQuery
      rw [hq, if_neg (by simp)]
    have hloc : isLocal e.uri (e.uri ++ b!"#" ++ id) = true := by
      unfold isLocal
      rw [Bool.and_eq_true]
      refine ⟨?_, ?_⟩
      · rw [List.isPrefixOf_iff_prefix, List.append_assoc]
        exact List.prefix_append _ _
      · rw [List.append_assoc, List.drop_left]
        rfl
    dsimp only
    rw [hdq]
    simp only [bind, Except.bind]
    rw [if_neg (by rw [hloc]; simp), hcreate]
    rfl
  have := validateRef_of_links h hts (p := (pre, t)) (mem_splits.2 ⟨post, hsplit⟩) hp hb hr
  have hft : finalTarget e d ts (some (e.uri ++ b!"#" ++ id)) = some (match idOffset e d.text ts id with
      | some o => slashes (positionUri e.uri (d.posAt o))
      | none => e.uri) := by
    unfold finalTarget
    dsimp only
    rw [if_pos (by rw [List.isPrefixOf_iff_prefix]; exact List.prefix_append _ _)]
    have : (e.uri ++ b!"#" ++ id).drop (e.uri.length + 1) = id := by
      have hlen : (e.uri ++ b!"#").length = e.uri.length + 1 := by simp
      rw [← hlen, List.drop_left]
    rw [this]
    cases idOffset e d.text ts id <;> rfl
  rw [hft] at this
  exact this

/-- The hypotheses of `C47_fragment` about the reference hold for `#b`. -/
example : validateRef exLinkEnv.uni b!"#b" = true ∧
    exLinkEnv.lib.valid (exLinkEnv.uri ++ b!"#" ++ b!"b") = true ∧
    (splitUri (exLinkEnv.uri ++ b!"#" ++ b!"b")).query = none ∧
    92 ∉ exLinkEnv.uri ++ b!"#" ++ b!"b" := by decide

/-- **C47.** A reference starting with `http:` is its own target. -/
theorem C47_http (e : LinkEnv) (d : TextDoc) (links : List DocLink) (ts pre post : List Tok) (t : Tok)
    (rest : Str) (h : findDocumentLinks e d = .ok links) (hts : linkTokens e d = .ok ts)
    (hsplit : ts = pre ++ t :: post) (hp : isPathValue e d.text (pre, t) = true)
    (hb : ¬ awaitsBase e d.text pre) (hc : bare (text d.text t) = b!"http:" ++ rest)
    (hnl : 10 ∉ rest ∧ 13 ∉ rest) (h92 : 92 ∉ rest)
    (hv : e.lib.valid (b!"http:" ++ rest) = true)
    (hlocal : ¬ (e.uri ++ b!"#").isPrefixOf (b!"http:" ++ rest) = true) :
    ⟨valueRange d t, some (b!"http:" ++ rest)⟩ ∈ links := by
  have hsl : slashes (b!"http:" ++ rest) = b!"http:" ++ rest := slashes_of_not_mem (by simpa using h92)
  have hcreate : e.lib.create (b!"http:" ++ rest) = some (b!"http:" ++ rest) := by
    unfold UriLib.create
    rw [hsl, if_pos hv]
  have hr : refersTo e (baseAt e d.text pre) (text d.text t) = some (some (b!"http:" ++ rest)) := by
    unfold refersTo
    rw [hc, if_pos (by simp [validateRef, anyChar, isCont, codePoint, isWordCP, isWordAscii])]
    have hwu : workspaceUrl e (b!"http:" ++ rest) (baseAt e d.text pre) = .ok (some (b!"http:" ++ rest)) := by
      have ht : trimStart (b!"http:" ++ rest) = b!"http:" ++ rest := trimStart_ascii (by decide) (by decide)
      unfold workspaceUrl
      have hj : isJavascript (b!"http:" ++ rest) = false := by
        unfold isJavascript
        rw [ht]
        have : (b!"http:" ++ rest).any (fun b => b == 10 || b == 13) = false := by
          rw [Bool.eq_false_iff]
          intro hh
          obtain ⟨b, hb, hb2⟩ := List.any_eq_true.1 hh
          simp at hb hb2
          rcases hb2 with rfl | rfl
          · simp at hb; exact hnl.1 hb
          · simp at hb; exact hnl.2 hb
        rw [this]
        simp [ciPrefix, lowerByte]
      rw [hj, if_neg (by simp)]
      dsimp only
      rw [ht]
      have hsch : schemaOf e.uni (b!"http:" ++ rest) = some b!"http" := by
        unfold schemaOf
        have : firstRunLen (isWordCP e.uni) (schemaChar e.uni) (b!"http:" ++ rest) = 4 := by
          simp [firstRunLen, runLen, isCont, codePoint, isWordCP, isWordAscii, schemaChar]
        dsimp only
        rw [this]
        simp
      rw [hsch]
      simp [toLower, lowerByte]
    rw [hwu]
    dsimp only
    unfold cleanUri
    rw [hcreate]
    have hs : (splitUri (b!"http:" ++ rest)).scheme = some b!"http" := by
      show (splitScheme (b!"http" ++ 58 :: rest)).1 = _
      rw [splitScheme_build (by simp) (by decide)]
    have hdq : dropQuery e.lib (b!"http:" ++ rest) = .ok (b!"http:" ++ rest) := by
      unfold dropQuery
      rw [hs, if_neg (by simp)]
    dsimp only
    rw [hdq]
    simp only [bind, Except.bind]
    rw [hs, if_neg (by simp), hcreate]
    rfl
  have := validateRef_of_links h hts (p := (pre, t)) (mem_splits.2 ⟨post, hsplit⟩) hp hb hr
  have hft : finalTarget e d ts (some (b!"http:" ++ rest)) = some (b!"http:" ++ rest) := by
    unfold finalTarget
    dsimp only
    rw [if_neg hlocal]
  rw [hft] at this
  exact this

/-- **C47.** A reference to a script or of an unknown scheme is no link. -/
theorem C47_no_link (e : LinkEnv) (d : TextDoc) (p : List Tok × Tok)
    (hs : isJavascript (bare (text d.text p.2)) = true ∨
      ∃ s, schemaOf e.uni (trimStart (bare (text d.text p.2))) = some s ∧
        toLower e.uni s ∉ [b!"http", b!"https", b!"file"]) : linkOf e d p = none := by
  unfold linkOf
  split
  · have : refersTo e (baseAt e d.text p.1) (text d.text p.2) = none := by
      unfold refersTo
      split
      · unfold workspaceUrl
        by_cases hj : isJavascript (bare (text d.text p.2)) = true
        · rw [if_pos hj]
        · rw [if_neg hj]
          rcases hs with hs | ⟨s, hs, hn⟩
          · exact absurd hs hj
          · dsimp only
            rw [hs]
            dsimp only
            rw [if_neg (by simpa using hn)]
      · rfl
    rw [this]
    rfl
  · rfl

example : isJavascript b!" JavaScript:f()" = true ∧
    schemaOf exLinkEnv.uni b!"mailto:x" = some b!"mailto" := by decide

theorem linkOf_none {e : LinkEnv} {d : TextDoc} {p : List Tok × Tok}
    (h : validateRef e.uni (bare (text d.text p.2)) = false) : linkOf e d p = none := by
  unfold linkOf refersTo
  split
  · rw [h, if_neg (by simp)]; rfl
  · rfl

/-- **C47.** A `javascript:` reference, in whatever case and behind white space, is no link. -/
theorem C47_javascript (e : LinkEnv) (d : TextDoc) (p : List Tok × Tok) (w x rest : Str)
    (hv : bare (text d.text p.2) = w ++ x ++ rest) (hw : ∀ b ∈ w, b = 32 ∨ b = 9 ∨ b = 10 ∨ b = 12 ∨ b = 13)
    (hx : asciiLower x = b!"javascript:") : linkOf e d p = none := by
  apply C47_no_link
  left
  rw [hv]
  unfold isJavascript
  have hc : ∀ l x : Str, (∀ b ∈ l, 97 ≤ b ∨ b = 58) → asciiLower x = l → ∀ r, ciPrefix l (x ++ r) = true := by
    intro l
    induction l with
    | nil => intro x _ _ r; cases x <;> rfl
    | cons a l ih =>
      intro x hl hx r
      cases x with
      | nil => simp [asciiLower] at hx
      | cons b x =>
        simp only [asciiLower, List.map_cons, List.cons.injEq] at hx
        rw [List.cons_append]
        unfold ciPrefix
        have : lowerByte b = a := hx.1
        rw [if_pos this]
        exact ih x (fun b hb => hl b (List.mem_cons_of_mem _ hb)) hx.2 r
  have h1 := hc _ x (by decide) hx rest
  have hne : ∃ b t, x = b :: t ∧ lowerByte b = 106 := by
    cases x with
    | nil => simp [asciiLower] at hx
    | cons b t =>
      refine ⟨b, t, rfl, ?_⟩
      simp only [asciiLower, List.map_cons, List.cons.injEq] at hx
      exact hx.1
  have h2 : trimStart (w ++ x ++ rest) = x ++ rest := by
    clear hv
    induction w with
    | nil =>
      obtain ⟨b, t, rfl, hb⟩ := hne
      have : b = 106 ∨ b = 74 := by unfold lowerByte at hb; split at hb <;> omega
      rcases this with rfl | rfl
      · exact trimStart_ascii (by decide) (by decide)
      · exact trimStart_ascii (by decide) (by decide)
    | cons b w ih =>
      have hb := hw b List.mem_cons_self
      have ih := ih fun c hc => hw c (List.mem_cons_of_mem _ hc)
      have e1 : runLen isSpaceCP (b :: (w ++ x ++ rest)) = 1 + runLen isSpaceCP (w ++ x ++ rest) := by
        have : runLen isSpaceCP (b :: (w ++ x ++ rest)) = if isCont b then 1 + runLen isSpaceCP (w ++ x ++ rest)
          else if isSpaceCP (codePoint (b :: (w ++ x ++ rest))) then 1 + runLen isSpaceCP (w ++ x ++ rest) else 0 := rfl
        rw [this]
        rcases hb with rfl | rfl | rfl | rfl | rfl <;> simp [isCont, codePoint, isSpaceCP]
      unfold trimStart at ih ⊢
      rw [List.cons_append, List.cons_append, e1, Nat.add_comm, List.drop_succ_cons]
      exact ih
  rw [h2, h1]
  rfl

example : bare b!"'\n JavaScript:f()'" = b!"\n " ++ b!"JavaScript:" ++ b!"f()" ∧
    asciiLower b!"JavaScript:" = b!"javascript:" := by decide

/-- **C47.** A value without letters, digits and underscores is no link. -/
theorem C47_no_word (e : LinkEnv) (d : TextDoc) (p : List Tok × Tok)
    (hv : ∀ b ∈ bare (text d.text p.2), b < 128 ∧ ¬ alnum b ∧ b ≠ 95) : linkOf e d p = none := by
  apply linkOf_none
  generalize bare (text d.text p.2) = v at hv
  unfold validateRef
  induction v with
  | nil => rfl
  | cons b v ih =>
    obtain ⟨h1, h2, h3⟩ := hv b List.mem_cons_self
    unfold anyChar
    rw [ih fun c hc => hv c (List.mem_cons_of_mem _ hc)]
    have : isWordCP e.uni (codePoint (b :: v)) = false := by
      simp only [codePoint, h1, if_true, isWordCP]
      simp only [alnum] at h2
      simp [isWordAscii]
      omega
    rw [this]
    simp

example : ∀ b ∈ bare b!"'/#'", b < 128 ∧ ¬ alnum b ∧ b ≠ 95 := by decide

/-- **C47.** Names are compared as they are written if the language service is case-sensitive, and
in lower case otherwise. -/
theorem C47_names (e : LinkEnv) (src : Str) (pre : List Tok) (t : Tok) :
    (lastOf .AttributeName pre = some t →
      (e.caseSensitive = true → attrAt e src pre = some (text src t)) ∧
      (e.caseSensitive = false → isAscii (text src t) → attrAt e src pre = some (asciiLower (text src t)))) ∧
    (lastOf .StartTag pre = some t →
      (e.caseSensitive = true → tagAt e src pre = some (text src t)) ∧
      (e.caseSensitive = false → isAscii (text src t) → tagAt e src pre = some (asciiLower (text src t)))) := by
  have key : ∀ s, isAscii s → toLower e.uni s = asciiLower s := by
    intro s hs
    unfold toLower
    rw [if_pos (by simpa [isAscii] using hs)]
    rfl
  constructor
  · intro h
    unfold attrAt LinkEnv.name
    rw [h]
    refine ⟨fun hc => by simp [hc], fun hc ha => by simp [hc, key _ ha]⟩
  · intro h
    unfold tagAt LinkEnv.name
    rw [h]
    refine ⟨fun hc => by simp [hc], fun hc ha => by simp [hc, key _ ha]⟩

/-- **C47.** A reference starting with `//` gets the scheme `https` in a document whose URI starts with
`https://`, and `http` in all others. -/
theorem C47_protocol_relative (e : LinkEnv) (d : TextDoc) (links : List DocLink) (ts pre post : List Tok) (t : Tok)
    (rest scheme : Str) (h : findDocumentLinks e d = .ok links) (hts : linkTokens e d = .ok ts)
    (hsplit : ts = pre ++ t :: post) (hp : isPathValue e d.text (pre, t) = true)
    (hb : ¬ awaitsBase e d.text pre) (hc : bare (text d.text t) = b!"//" ++ rest)
    (hw : validateRef e.uni (b!"//" ++ rest) = true)
    (hnl : 10 ∉ rest ∧ 13 ∉ rest) (h92 : 92 ∉ rest)
    (hs : scheme = b!"https" ∧ (∃ r, e.uri = b!"https://" ++ r) ∨
      scheme = b!"http" ∧ ¬ ∃ r, e.uri = b!"https://" ++ r)
    (hv : e.lib.valid (scheme ++ b!"://" ++ rest) = true)
    (hlocal : ¬ (e.uri ++ b!"#").isPrefixOf (scheme ++ b!"://" ++ rest) = true) :
    ⟨valueRange d t, some (scheme ++ b!"://" ++ rest)⟩ ∈ links := by
  have hs92 : 92 ∉ scheme := by rcases hs with ⟨rfl, _⟩ | ⟨rfl, _⟩ <;> decide
  have hsl : slashes (scheme ++ b!"://" ++ rest) = scheme ++ b!"://" ++ rest :=
    slashes_of_not_mem (by simp; exact ⟨hs92, h92⟩)
  have hcreate : e.lib.create (scheme ++ b!"://" ++ rest) = some (scheme ++ b!"://" ++ rest) := by
    unfold UriLib.create
    rw [hsl, if_pos hv]
  have hr : refersTo e (baseAt e d.text pre) (text d.text t) = some (some (scheme ++ b!"://" ++ rest)) := by
    unfold refersTo
    rw [hc, if_pos hw]
    have hwu : workspaceUrl e (b!"//" ++ rest) (baseAt e d.text pre) = .ok (some (scheme ++ b!"://" ++ rest)) := by
      have ht : trimStart (b!"//" ++ rest) = b!"//" ++ rest := trimStart_ascii (by decide) (by decide)
      unfold workspaceUrl
      have hj : isJavascript (b!"//" ++ rest) = false := by
        unfold isJavascript
        rw [ht]
        have : (b!"//" ++ rest).any (fun b => b == 10 || b == 13) = false := by
          rw [Bool.eq_false_iff]
          intro hh
          obtain ⟨b, hb, hb2⟩ := List.any_eq_true.1 hh
          simp at hb hb2
          rcases hb2 with rfl | rfl
          · simp at hb; exact hnl.1 hb
          · simp at hb; exact hnl.2 hb
        rw [this]
        simp [ciPrefix, lowerByte]
      rw [hj, if_neg (by simp)]
      dsimp only
      rw [ht]
      have hsch : schemaOf e.uni (b!"//" ++ rest) = none := by
        unfold schemaOf
        have : firstRunLen (isWordCP e.uni) (schemaChar e.uni) (b!"//" ++ rest) = 0 := by
          simp [firstRunLen, codePoint, isWordCP, isWordAscii]
        dsimp only
        rw [this]
        simp
      rw [hsch]
      dsimp only
      rw [if_neg (by simp), if_pos (by simp), ht]
      rcases hs with ⟨rfl, r, hr⟩ | ⟨rfl, hr⟩
      · rw [hr, if_pos (by simp)]; rfl
      · rw [if_neg (by
          intro hh
          rw [List.isPrefixOf_iff_prefix] at hh
          obtain ⟨r, hr'⟩ := hh
          exact hr ⟨r, hr'.symm⟩)]; rfl
    rw [hwu]
    dsimp only
    unfold cleanUri
    rw [hcreate]
    have hs : (splitUri (scheme ++ b!"://" ++ rest)).scheme = some scheme := by
      have e1 : scheme ++ b!"://" ++ rest = scheme ++ 58 :: (47 :: 47 :: rest) := by simp
      show (splitScheme (scheme ++ b!"://" ++ rest)).1 = _
      rw [e1]
      rcases hs with ⟨rfl, _⟩ | ⟨rfl, _⟩
      · rw [splitScheme_build (by simp) (by decide)]
      · rw [splitScheme_build (by simp) (by decide)]
    have hnf : some scheme ≠ some b!"file" := by rcases ‹_ ∨ _› with ⟨rfl, _⟩ | ⟨rfl, _⟩ <;> decide
    have hdq : dropQuery e.lib (scheme ++ b!"://" ++ rest) = .ok (scheme ++ b!"://" ++ rest) := by
      unfold dropQuery
      rw [hs, if_neg (fun h => hnf h.1)]
    dsimp only
    rw [hdq]
    simp only [bind, Except.bind]
    rw [hs, if_neg (fun h => hnf h.1), hcreate]
    rfl
  have := validateRef_of_links h hts (p := (pre, t)) (mem_splits.2 ⟨post, hsplit⟩) hp hb hr
  have hft : finalTarget e d ts (some (scheme ++ b!"://" ++ rest)) = some (scheme ++ b!"://" ++ rest) := by
    unfold finalTarget
    dsimp only
    rw [if_neg hlocal]
  rw [hft] at this
  exact this

/-- A protocol-relative link in an `http` document. -/
example : returns (findDocumentLinks exLinkEnv (.ref b!"<a href='//c'>")) (fun l => l =
    [⟨⟨⟨0, 9⟩, ⟨0, 12⟩⟩, some b!"http://c"⟩]) = true := by decide +kernel

/-- **C53.** Without a `base` tag there is a link for every value of a path attribute that refers to
something. -/
theorem C53_every_reference (e : LinkEnv) (d : TextDoc) (links : List DocLink) (ts : List Tok)
    (h : findDocumentLinks e d = .ok links) (hts : linkTokens e d = .ok ts)
    (hb : ∀ t ∈ ts, isBaseTag e d.text t = false) :
    links = ((splits ts).filter (isPathValue e d.text)).filterMap (fun p =>
      (refersTo e none (text d.text p.2)).map (fun x => ⟨valueRange d p.2, finalTarget e d ts x⟩)) := by
  obtain ⟨ts', hts', hl⟩ := findDocumentLinks_ok h
  unfold linkTokens at hts
  rw [hts] at hts'
  injection hts' with hts'
  subst hts'
  rw [hl, List.filterMap_filter, List.map_filterMap]
  have hcongr : ∀ {α β : Type} (f g : α → Option β) (l : List α), (∀ a ∈ l, f a = g a) →
      l.filterMap f = l.filterMap g := by
    intro α β f g l hfg
    induction l with
    | nil => rfl
    | cons a l ih =>
      rw [List.filterMap_cons, List.filterMap_cons, hfg a (by simp), ih (fun x hx => hfg x (by simp [hx]))]
  apply hcongr
  intro p hp
  obtain ⟨post, e1⟩ := mem_splits.1 hp
  have hnone : p.1.any (isBaseTag e d.text) = false := by
    rw [Bool.eq_false_iff]
    intro hh
    obtain ⟨t, ht, htb⟩ := List.any_eq_true.1 hh
    rw [hb t (by rw [e1]; simp [ht])] at htb
    cases htb
  have h1 : ¬ awaitsBase e d.text p.1 := by
    intro hh
    rw [awaitsBase_any hh] at hnone
    cases hnone
  have h2 : baseAt e d.text p.1 = none := by
    unfold baseAt
    have : baseValue e d.text p.1 = none := by
      unfold baseValue
      rw [List.find?_eq_none]
      intro q hq
      obtain ⟨post2, e2⟩ := mem_splits.1 hq
      have : q.1.any (isBaseTag e d.text) = false := by
        rw [e2, List.any_append] at hnone
        simp only [Bool.or_eq_false_iff] at hnone
        exact hnone.1
      simp [this]
    rw [this]
    rfl
  unfold linkOf
  by_cases hv : isPathValue e d.text p = true
  · rw [if_pos ⟨hv, h1⟩, if_pos hv, h2, Option.map_map]
    rfl
  · rw [if_neg (fun x => hv x.1), if_neg hv]
    rfl

/-- **C53.** A `base` tag without a reference swallows the link of another element: the `href` of the
first link after it is taken for the base. -/
theorem C53_link_swallowed :
    findDocumentLinks exLinkEnv (.ref b!"<base><a href=x>") = .ok [] := by krfl

/-- Without the `base` tag there is a link. -/
example : returns (findDocumentLinks exLinkEnv (.ref b!"<a href=x>"))
    (fun l => l.map DocLink.target = [some b!"http://h/x"]) = true := by decide +kernel

/-- **C54.** When finding links panics in a UTF-8 document, with a forgiving URI parser: the document
cannot be scanned, or an attribute value is the lone quote of an `id` or a path attribute, or the
document context panics on the base or on a relative reference. -/
theorem C54_panics_iff (e : LinkEnv) (d : TextDoc) (cps : List Nat) (hu : Utf8 cps d.text) (hf : Forgiving e) :
    (∃ er, findDocumentLinks e d = .error er) ↔
      (∃ er, linkTokens e d = .error er) ∨
      ∃ ts, linkTokens e d = .ok ts ∧ ∃ p ∈ splits ts, LinkPanics e d.text p := by
  cases h : linkTokens e d with
  | ok ts =>
    rw [findDocumentLinks_panics hf hu h]
    simp
  | error er =>
    refine ⟨fun _ => .inl ⟨er, rfl⟩, fun _ => ?_⟩
    cases hl : findDocumentLinks e d with
    | error x => exact ⟨x, rfl⟩
    | ok links =>
      obtain ⟨ts, hts, _⟩ := findDocumentLinks_ok hl
      have hts : linkTokens e d = .ok ts := hts
      rw [h] at hts
      cases hts

/-- A forgiving parser, and a document that can be scanned. -/
example : Forgiving ⟨exLinkEnv.uni, false, exLib, b!"http://h/", exLib.resolveReference⟩ :=
  ⟨fun _ _ _ _ _ => rfl, fun _ _ _ => rfl, fun _ => rfl⟩

example : Utf8 [60, 97, 32, 104, 114, 101, 102, 61, 39, 233, 39, 62] b!"<a href='é'>" :=
  ⟨by decide, by decide⟩

example : returns (findDocumentLinks exLinkEnv (.ref b!"<a href='c' id=\"x\">")) (fun l => l.length = 1) = true := by
  decide +kernel

/-- **C54.** A document without `base` element whose URI is valid and has a scheme, with the default
document context: finding links panics only where the scanner does, or at the lone quote of an `id` or
a path attribute. -/
theorem C54_default_context (e : LinkEnv) (d : TextDoc) (cps : List Nat) (ts : List Tok) (hu : Utf8 cps d.text)
    (hf : Forgiving e) (hr : e.resolve = e.lib.resolveReference) (hv : e.lib.valid e.uri = true)
    (hs : (splitUri e.uri).scheme.isSome) (hts : linkTokens e d = .ok ts)
    (hb : ∀ t ∈ ts, t.type = .StartTag → e.name (text d.text t) ≠ b!"base") :
    (∃ er, findDocumentLinks e d = .error er) ↔
      ∃ p ∈ splits ts, (isIdValue e d.text p = true ∨ isPathValue e d.text p = true) ∧
        LoneQuote (text d.text p.2) := by
  rw [findDocumentLinks_panics hf hu hts]
  have key : ∀ r, ¬ ResolvePanics e r e.uri := by
    intro r h
    unfold ResolvePanics at h
    rw [hr, C48_panic_iff, hv] at h
    rcases h.2 with h | h
    · cases h
    · rw [h.2] at hs; cases hs
  have nb : ∀ p ∈ splits ts, p.1.any (isBaseTag e d.text) = false := by
    intro p hp
    obtain ⟨post, rfl⟩ := mem_splits.1 hp
    rw [Bool.eq_false_iff]
    intro ha
    obtain ⟨t, ht, h1⟩ := List.any_eq_true.1 ha
    unfold isBaseTag at h1
    simp only [Bool.and_eq_true, decide_eq_true_eq] at h1
    exact hb t (by simp [ht]) h1.1 h1.2
  have na : ∀ p ∈ splits ts, ¬ awaitsBase e d.text p.1 := by
    intro p hp h
    have := awaitsBase_any h
    rw [nb p hp] at this
    cases this
  have bv : ∀ p ∈ splits ts, baseAt e d.text p.1 = none := by
    intro p hp
    unfold baseAt
    cases h : baseValue e d.text p.1 with
    | none => rfl
    | some q =>
      have h1 := List.find?_some h
      have h2 := List.mem_of_find?_eq_some h
      obtain ⟨post, he⟩ := mem_splits.1 h2
      obtain ⟨post', he'⟩ := mem_splits.1 hp
      have := nb q (mem_splits.2 ⟨post ++ p.2 :: post', by rw [he', he]; simp⟩)
      rw [this] at h1
      simp at h1
  constructor
  · rintro ⟨p, hp, h | ⟨h, ha, _⟩ | ⟨h, _, hq | ⟨_, hx⟩⟩⟩
    · exact ⟨p, hp, .inl h.1, h.2⟩
    · exact absurd ha (na p hp)
    · exact ⟨p, hp, .inr h, hq⟩
    · rw [bv p hp] at hx; exact absurd hx (key _)
  · rintro ⟨p, hp, h | h, hq⟩
    · exact ⟨p, hp, .inl ⟨h, hq⟩⟩
    · exact ⟨p, hp, .inr (.inr ⟨h, na p hp, .inl hq⟩)⟩

example : asciiLib.valid exLinkEnv.uri = true ∧ (splitUri exLinkEnv.uri).scheme.isSome := by decide

example : returns (linkTokens exLinkEnv (.ref b!"<a href='c'>")) (fun ts => ts.all (fun t =>
    t.type ≠ .StartTag || exLinkEnv.name (text b!"<a href='c'>" t) ≠ b!"base")) = true := by
  decide +kernel

/-- **C54.** An unfinished attribute value (only its opening quote) makes finding links panic. -/
theorem C54_lone_quote_panics :
    findDocumentLinks exLinkEnv (.ref b!"<a href=\"") = .error .slice := by krfl

/-- **C54.** So does an empty base reference in front of a relative one. -/
theorem C54_empty_base_panics :
    findDocumentLinks exLinkEnv (.ref b!"<base href=''><a href=x>") = .error .unwrap := by krfl

/-- **C54.** So does a base reference that is not a URI in front of a relative one. -/
theorem C54_bad_base_panics :
    findDocumentLinks exLinkEnv (.ref b!"<base href='<'><a href=x>") = .error .unwrap := by krfl

end Html.Props
