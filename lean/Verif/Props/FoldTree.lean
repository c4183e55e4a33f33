import Verif.Proof.FoldTree
import Verif.Props.Folding
import Verif.Props.Parser

/-!
# Folding ranges and the tree (C78)
-/

namespace Html.Props
open Html Spec

/-- C78: a scanner that closes tags which are cut short by a `<` (the one of the parser) and one that
does not (the one of the other services) return the same tokens, if no tag is cut short. -/
theorem C78_scanners_agree (u : Uni) (cs : Bool) (src : Str) (s : Sc) (ts : List Tok)
    (h : tokens (parserCfg u cs src) s = .ok ts) (hl : ∀ t ∈ ts, t.offset < t.stop) :
    tokens ⟨u, src, false, cs⟩ s = .ok ts := tokens_plain h hl

/-- `<a <b></b>`: the tag `<a ` is cut short. -/
example : returns (tokens (parserCfg exUni false b!"<a <b>") (.new 0 .WithinContent)) (fun ts =>
      ts.length = 7 ∧ ¬ ∀ t ∈ ts, t.offset < t.stop) = true ∧
    returns (tokens ⟨exUni, b!"<a <b>", false, false⟩ (.new 0 .WithinContent)) (fun ts =>
      (ts.length = 6)) = true := by decide +kernel

/-- C78: the folding ranges are exactly those of the closed elements of the tree and of the comments,
in the order in which they end, if no tag is cut short, all tags have names, names are not written in
different ways, and there are no region markers. -/
theorem C78_exact (u : Uni) (cs : Bool) (void : List Str) (d : TextDoc) (roots : List Node) (ts : List Tok)
    (rs : List Fold) (h : parse u cs void d.text = .ok roots)
    (hts : tokens (parserCfg u cs d.text) (.new 0 .WithinContent) = .ok ts)
    (hf : getFoldingRanges u cs void d none = .ok rs) (h1 : ∀ t ∈ ts, t.offset < t.stop) (h2 : TagsNamed ts)
    (h3 : NamesAgree u cs d.text ts)
    (h4 : ∀ t ∈ ts, t.type = .Comment → ¬ RegionStart u (text d.text t) ∧ ¬ RegionEnd u (text d.text t)) :
    ∃ es, es.Pairwise (fun a b => a.stop < b.stop) ∧ (∀ e, e ∈ es ↔ CanFold roots ts e) ∧ rs = foldAll d es := by
  unfold parse at h
  obtain ⟨p, hp, h⟩ := bind_ok h
  cases h
  unfold getFoldingRanges at hf
  obtain ⟨f, hf1, hf⟩ := bind_ok hf
  cases hf
  obtain ⟨ts', ht', hf2⟩ := foldLoop_ok.1 hf1
  have hts' : ts' = ts := by
    have h5 : tokens ⟨u, d.text, false, cs⟩ (.new 0 .WithinContent) = .ok ts' := ht'
    rw [C78_scanners_agree u cs d.text _ ts hts h1] at h5
    cases h5; rfl
  subst hts'
  have hi : FoldSim (parserCfg u cs d.text).uni (parserCfg u cs d.text).caseSensitive d
      (fun x => ∃ t ∈ ts', t.type = .StartTag ∧ text d.text t = x)
      (fun x => ∃ t ∈ ts', t.type = .EndTag ∧ text d.text t = x)
      (.init d.text.length) (.new 0 .WithinContent) ⟨[], [], none, none⟩ [] [] := by
    refine ⟨fun h0 => (by cases h0), fun _ => .root _, by simp, fun h0 => (by cases h0), fun h0 => (by cases h0),
      .nil, by simp, fun e => ?_, rfl⟩
    constructor
    · intro h0; cases h0
    · rintro (⟨n, ⟨q, hq, hn⟩, _⟩ | ⟨t, ht, _⟩)
      · simp only [PState.init, List.mem_singleton] at hq
        subst hq
        obtain ⟨m, hm, _⟩ := inForest_cases hn
        cases hm
      · cases ht
  obtain ⟨s', es, hr⟩ := hi.loop (c := parserCfg u cs d.text) rfl PInv.init
    (by
      rintro a b ⟨t, ht, hty, rfl⟩ ⟨t', ht', hty', rfl⟩ hs
      exact h3 t ht t' ht' hty hty' hs) h1 h2 ⟨fun h0 => (by cases h0), fun h0 => (by cases h0)⟩
    (fun t ht hty => ⟨t, ht, hty, rfl⟩) (fun t ht hty => ⟨t, ht, hty, rfl⟩)
    (fun t ht hty => by
      obtain ⟨h5, h6⟩ := h4 t ht hty
      exact ⟨Bool.eq_false_iff.2 fun h => h5 (isRegionStart_spec h), Bool.eq_false_iff.2 fun h => h6 (isRegionEnd_iff.1 h)⟩)
    hp (by rw [parse_tokens]; exact hts) hf2
  refine ⟨es, hr.sorted, fun e => ?_, ?_⟩
  · rw [hr.mem e, List.nil_append]
    unfold CanFold
    constructor
    · rintro (⟨n, h5, h6, h7⟩ | h5)
      · exact .inl ⟨n, (finishAll_finished n h6).2 h5, h6, h7⟩
      · exact .inr h5
    · rintro (⟨n, h5, h6, h7⟩ | h5)
      · exact .inl ⟨n, (finishAll_finished n h6).1 h5, h6, h7⟩
      · exact .inr h5
  · unfold foldAll
    rw [← hr.ranges]

theorem foldNext_cases (d : TextDoc) (f : List Fold × Option Nat) (e : Foldable) :
    foldNext d f e = f ∨ ∃ r, foldNext d f e = (f.1 ++ [r], some r.startLine) ∧
      ((∃ a b, e = .element a b ∧ r = ⟨(d.posAt (a + 1)).line, (d.posAt b).line - 1, none⟩ ∧
        (d.posAt (a + 1)).line + 1 < (d.posAt b).line) ∨
      (∃ a b, e = .comment a b ∧ r = ⟨(d.posAt a).line, (d.posAt (b + 3)).line, some .comment⟩)) := by
  cases e with
  | element a b =>
    simp only [foldNext]
    split
    · rename_i h
      exact .inr ⟨_, rfl, .inl ⟨a, b, rfl, rfl, h.1⟩⟩
    · exact .inl rfl
  | comment a b =>
    simp only [foldNext]
    split
    · exact .inr ⟨_, rfl, .inr ⟨a, b, rfl, rfl⟩⟩
    · exact .inl rfl

theorem foldNext_grow (d : TextDoc) (es : List Foldable) (f : List Fold × Option Nat) :
    ∀ r ∈ f.1, r ∈ (es.foldl (foldNext d) f).1 := by
  induction es generalizing f with
  | nil => intro r hr; exact hr
  | cons e es ih =>
    intro r hr
    rw [List.foldl_cons]
    apply ih
    rcases foldNext_cases d f e with h | ⟨r', h, _⟩ <;> rw [h]
    · exact hr
    · exact List.mem_append_left _ hr

theorem foldNext_source (d : TextDoc) (es : List Foldable) (f : List Fold × Option Nat) (r : Fold)
    (h : r ∈ (es.foldl (foldNext d) f).1) : r ∈ f.1 ∨
      (∃ a b, .element a b ∈ es ∧ r = ⟨(d.posAt (a + 1)).line, (d.posAt b).line - 1, none⟩ ∧
        (d.posAt (a + 1)).line + 1 < (d.posAt b).line) ∨
      (∃ a b, .comment a b ∈ es ∧ r = ⟨(d.posAt a).line, (d.posAt (b + 3)).line, some .comment⟩) := by
  induction es generalizing f with
  | nil => exact .inl h
  | cons e es ih =>
    rw [List.foldl_cons] at h
    rcases ih _ h with h1 | ⟨a, b, h1, h2⟩ | ⟨a, b, h1, h2⟩
    · rcases foldNext_cases d f e with h | ⟨r', h, hs⟩ <;> rw [h] at h1
      · exact .inl h1
      · rcases List.mem_append.1 h1 with h1 | h1
        · exact .inl h1
        · rw [List.mem_singleton] at h1
          subst h1
          rcases hs with ⟨a, b, rfl, h2⟩ | ⟨a, b, rfl, h2⟩
          · exact .inr (.inl ⟨a, b, by simp, h2⟩)
          · exact .inr (.inr ⟨a, b, by simp, h2⟩)
    · exact .inr (.inl ⟨a, b, List.mem_cons_of_mem _ h1, h2⟩)
    · exact .inr (.inr ⟨a, b, List.mem_cons_of_mem _ h1, h2⟩)

theorem foldNext_first (d : TextDoc) (es : List Foldable) (f : List Fold × Option Nat)
    (hf : ∀ l, f.2 = some l → ∃ r ∈ f.1, r.startLine = l) (a b : Nat) (h : .element a b ∈ es)
    (hl : (d.posAt (a + 1)).line + 1 < (d.posAt b).line) :
    ∃ r ∈ (es.foldl (foldNext d) f).1, r.startLine = (d.posAt (a + 1)).line := by
  induction es generalizing f with
  | nil => cases h
  | cons e es ih =>
    rw [List.foldl_cons]
    rcases List.mem_cons.1 h with h | h
    · subst h
      by_cases hc : f.2 = some (d.posAt (a + 1)).line
      · obtain ⟨r, hr, h1⟩ := hf _ hc
        refine ⟨r, foldNext_grow d es _ r ?_, h1⟩
        rcases foldNext_cases d f (.element a b) with h | ⟨r', h, _⟩ <;> rw [h]
        · exact hr
        · exact List.mem_append_left _ hr
      · refine ⟨⟨(d.posAt (a + 1)).line, (d.posAt b).line - 1, none⟩, foldNext_grow d es _ _ ?_, rfl⟩
        simp only [foldNext]
        rw [if_pos ⟨hl, hc⟩]
        exact List.mem_append_right _ (by simp)
    · refine ih _ ?_ h
      intro l hl2
      rcases foldNext_cases d f e with h | ⟨r', h, _⟩ <;> rw [h] at hl2 ⊢
      · exact hf l hl2
      · cases hl2; exact ⟨r', List.mem_append_right _ (by simp), rfl⟩

/-- C78: what is folded, apart from comments, is a closed element of the tree of at least three lines,
without its last line; and every such element can be folded at its first line. -/
theorem C78_elements (u : Uni) (cs : Bool) (void : List Str) (d : TextDoc) (roots : List Node) (ts : List Tok)
    (rs : List Fold) (h : parse u cs void d.text = .ok roots)
    (hts : tokens (parserCfg u cs d.text) (.new 0 .WithinContent) = .ok ts)
    (hf : getFoldingRanges u cs void d none = .ok rs) (h1 : ∀ t ∈ ts, t.offset < t.stop) (h2 : TagsNamed ts)
    (h3 : NamesAgree u cs d.text ts)
    (h4 : ∀ t ∈ ts, t.type = .Comment → ¬ RegionStart u (text d.text t) ∧ ¬ RegionEnd u (text d.text t)) :
    (∀ r ∈ rs, r.kind = none → ∃ n, InForest roots n ∧ n.closed = true ∧
      r.startLine = (d.posAt (n.start + 1)).line ∧ r.endLine + 1 = (d.posAt n.stop).line ∧
      r.startLine < r.endLine) ∧
    (∀ n, InForest roots n → n.closed = true → (d.posAt (n.start + 1)).line + 1 < (d.posAt n.stop).line →
      ∃ r ∈ rs, r.startLine = (d.posAt (n.start + 1)).line) := by
  obtain ⟨es, _, h5, h6⟩ := C78_exact u cs void d roots ts rs h hts hf h1 h2 h3 h4
  subst h6
  refine ⟨fun r hr hk => ?_, fun n hn hc hl => ?_⟩
  · rcases foldNext_source d es _ r hr with h6 | ⟨a, b, h6, h7, h8⟩ | ⟨a, b, h6, h7⟩
    · cases h6
    · rcases (h5 _).1 h6 with ⟨n, hn, hc, he⟩ | ⟨t, _, _, he⟩
      · cases he
        refine ⟨n, hn, hc, by rw [h7], by rw [h7]; dsimp only; omega, by rw [h7]; dsimp only; omega⟩
      · cases he
    · rw [h7] at hk; cases hk
  · exact foldNext_first d es _ (by simp) _ _ ((h5 _).2 (.inl ⟨n, hn, hc, rfl⟩)) hl

/-- A list with an element, one without an end tag in it, a void element and a comment. -/
def exFoldTree : Str := b!"<u>\n<p>\n<br\n\n/>\n</u>\n<!--\n-->"

example : returns (tokens (parserCfg exUni false exFoldTree) (.new 0 .WithinContent)) (fun ts =>
    decide (∀ t ∈ ts, t.offset < t.stop) && decide (ts.length = 20) &&
    decide (∀ p ∈ ts.zip ts.tail, (p.1.type = .StartTagOpen → p.2.type = .StartTag) ∧
      (p.1.type = .EndTagOpen → p.2.type = .EndTag)) &&
    decide (∀ t ∈ ts, t.type = .Comment → isRegionStart exUni (text exFoldTree t) = false ∧
      isRegionEnd exUni (text exFoldTree t) = false) &&
    decide (∀ a ∈ ts, ∀ b ∈ ts, a.type = .StartTag → b.type = .EndTag →
      toLower exUni (text exFoldTree a) = toLower exUni (text exFoldTree b) →
      text exFoldTree a = text exFoldTree b)) = true := by decide +kernel

example : returns (getFoldingRanges exUni false [b!"br"] (.ref exFoldTree) none) (fun rs => rs =
    [⟨2, 3, none⟩, ⟨0, 4, none⟩, ⟨6, 7, some .comment⟩]) = true := by
  rw [folding_ref]; decide +kernel

example : returns (parse exUni false [b!"br"] exFoldTree) (fun roots =>
    roots.map (fun n => (n.start, n.stop, n.closed)) = [(0, 20, true)] ∧
    (roots.flatMap Node.children).map (fun n => (n.start, n.stop, n.closed)) = [(4, 16, false)] ∧
    ((roots.flatMap Node.children).flatMap Node.children).map (fun n => (n.start, n.stop, n.closed)) =
      [(8, 15, true)]) = true := by decide +kernel

/-- Names must be written the same way: in `<A>`, two line breaks, `</a>` the element is closed, but
nothing is folded. -/
theorem C78_other_case :
    returns (parse exUni false [] b!"<A>\n\n</a>") (fun roots =>
      roots.map (fun n => (n.start, n.stop, n.closed)) = [(0, 9, true)]) = true ∧
    returns (getFoldingRanges exUni false [] (.ref b!"<A>\n\n</a>") none) (fun rs => rs = []) = true := by
  rw [folding_ref]; decide +kernel

/-- All tags must have names: in `<a>`, two line breaks, `</>` the element is not closed, but it is
folded. -/
theorem C78_no_name :
    returns (parse exUni false [] b!"<a>\n\n</>") (fun roots =>
      roots.map (fun n => (n.start, n.stop, n.closed)) = [(0, 8, false)]) = true ∧
    returns (getFoldingRanges exUni false [] (.ref b!"<a>\n\n</>") none) (fun rs => rs = [⟨0, 1, none⟩]) = true := by
  rw [folding_ref]; decide +kernel

end Html.Props
