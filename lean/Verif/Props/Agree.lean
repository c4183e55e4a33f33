import Verif.Proof.SelectionExact
import Verif.Props.Rename

/-!
# The services on tag names agree with each other (C75)
-/

namespace Html.Props
open Html Spec

/-- C75: there is a matching tag position exactly if linked editing and rename both offer the same two
ranges. -/
theorem C75_matching_iff (u : Uni) (cs : Bool) (void : List Str) (d : TextDoc) (roots : List Node)
    (p : Pos) (h : parse u cs void d.text = .ok roots) :
    (∃ q, findMatchingTagPosition d p roots = some q) ↔
    ∃ a b, findLinkedEditingRanges d p roots = some [a, b] ∧
      ∀ new, doRename d p new roots = some [⟨a, new⟩, ⟨b, new⟩] := by
  constructor
  · rintro ⟨q, hq⟩
    obtain ⟨n, e, t, h1, h2, ht, he, k, hk, h4⟩ := (C27_position_iff u cs void d roots p q h).1 hq
    have hl : nameLen n = t.length := by simp [nameLen, ht]
    have hon : OnName (n.start + 1) t.length (d.offsetAt p) ∨ OnName (e + 2) t.length (d.offsetAt p) := by
      unfold OnName
      rcases h4 with ⟨h4, _⟩ | ⟨h4, _⟩ <;> omega
    refine ⟨_, _, (C26_ranges_iff u cs void d roots p _ h).2 ⟨n, e, h1, h2, he, hl.symm ▸ hon, rfl⟩, fun new => ?_⟩
    refine (C28_edits_iff u cs void d roots p new _ h).2
      ⟨n, t, h1, h2, ht, hon.imp id fun hx => ⟨e, he, hx⟩, ?_⟩
    rw [he, hl]; rfl
  · rintro ⟨a, b, _, hr⟩
    obtain ⟨n, t, h1, h2, ht, h4, h5⟩ := (C28_edits_iff u cs void d roots p [] _ h).1 (hr [])
    cases he : n.endTagStart with
    | none => rw [he] at h5; simp at h5
    | some e =>
      rcases h4 with h4 | ⟨e', he', h4⟩
      · exact ⟨_, (C27_position_iff u cs void d roots p _ h).2 ⟨n, e, t, h1, h2, ht, he,
          d.offsetAt p - (n.start + 1), by unfold OnName at h4; omega,
          .inl ⟨by unfold OnName at h4; omega, rfl⟩⟩⟩
      · exact ⟨_, (C27_position_iff u cs void d roots p _ h).2 ⟨n, e', t, h1, h2, ht, he',
          d.offsetAt p - (e' + 2), by unfold OnName at h4; omega,
          .inr ⟨by unfold OnName at h4; omega, rfl⟩⟩⟩

/-- C75: rename gives two edits exactly if there is a matching tag position, and one edit exactly if the
name under the cursor belongs to an element without an end tag; then linked editing offers nothing. -/
theorem C75_rename_edits (u : Uni) (cs : Bool) (void : List Str) (d : TextDoc) (roots : List Node)
    (p : Pos) (new : Str) (es : List TextEdit) (h : parse u cs void d.text = .ok roots)
    (hr : doRename d p new roots = some es) :
    (es.length = 2 ∧ findLinkedEditingRanges d p roots = some (es.map (·.range)) ∧
      ∃ q, findMatchingTagPosition d p roots = some q) ∨
    (es.length = 1 ∧ findLinkedEditingRanges d p roots = none ∧ findMatchingTagPosition d p roots = none) := by
  obtain ⟨n, t, h1, h2, ht, h4, h5⟩ := (C28_edits_iff u cs void d roots p new es h).1 hr
  have hl : nameLen n = t.length := by simp [nameLen, ht]
  obtain ⟨ps, hf⟩ := findNodeAt_name h h1 h2 (by rw [hl]; exact h4)
  cases he : n.endTagStart with
  | none =>
    right
    rw [he] at h5; subst h5
    rw [linked_eq d p hf, matching_eq d p hf, he]
    exact ⟨rfl, rfl, by cases n.tag <;> rfl⟩
  | some e =>
    left
    rw [he] at h5; subst h5
    have hon : OnName (n.start + 1) t.length (d.offsetAt p) ∨ OnName (e + 2) t.length (d.offsetAt p) :=
      h4.imp id fun ⟨e', he', hx⟩ => by rw [he] at he'; cases he'; exact hx
    refine ⟨rfl, (C26_ranges_iff u cs void d roots p _ h).2 ⟨n, e, h1, h2, he, hl.symm ▸ hon, by rw [hl]; rfl⟩, ?_⟩
    refine (C75_matching_iff u cs void d roots p h).2
      ⟨_, _, (C26_ranges_iff u cs void d roots p _ h).2 ⟨n, e, h1, h2, he, hl.symm ▸ hon, rfl⟩, fun new' => ?_⟩
    refine (C28_edits_iff u cs void d roots p new' _ h).2 ⟨n, t, h1, h2, ht, h4, ?_⟩
    rw [he, hl]; rfl

/-- C75: linked editing without rename happens only at elements without a name, and then its ranges are
empty. -/
theorem C75_linked_without_rename (u : Uni) (cs : Bool) (void : List Str) (d : TextDoc) (roots : List Node)
    (p : Pos) (new : Str) (rs : List Range) (h : parse u cs void d.text = .ok roots)
    (hr : findLinkedEditingRanges d p roots = some rs) :
    doRename d p new roots = some (rs.map (⟨·, new⟩)) ∨
    ((doRename d p new roots = none ∧ ∀ r ∈ rs, r.start = r.stop) ∧
      ∃ n, InForest roots n ∧ Covers n (d.offsetAt p) ∧ n.tag = none) := by
  obtain ⟨n, e, h1, h2, he, h4, rfl⟩ := (C26_ranges_iff u cs void d roots p rs h).1 hr
  cases ht : n.tag with
  | some t =>
    left
    have hl : nameLen n = t.length := by simp [nameLen, ht]
    refine (C28_edits_iff u cs void d roots p new _ h).2 ⟨n, t, h1, h2, ht, ?_, ?_⟩
    · rw [hl] at h4; exact h4.imp id fun hx => ⟨e, he, hx⟩
    · rw [he, hl]; rfl
  | none =>
    right
    have hl : nameLen n = 0 := by simp [nameLen, ht]
    obtain ⟨ps, hf⟩ := findNodeAt_name h h1 h2 (h4.imp id fun hx => ⟨e, he, hx⟩)
    rw [rename_eq d p new hf, ht, hl]
    refine ⟨⟨rfl, fun r hr => ?_⟩, n, h1, h2, ht⟩
    simp only [List.mem_cons, List.not_mem_nil, or_false] at hr
    rcases hr with rfl | rfl <;> rfl

theorem nameAt_noBlank {src : Str} {i a : Nat} {t : Str} (h : NameAt src i t a) (hb : NoBlank src i) : a = i := by
  obtain ⟨_, _, _, w, hw, ⟨r, hat⟩, rfl⟩ := h
  cases w with
  | nil => rfl
  | cons b w =>
    have : src[i]? = some b := by
      have := congrArg (·[0]?) hat
      simpa using this
    exact absurd (hw b (by simp)) (hb b this)

/-- C75: without blanks in front of the names, which are ASCII if case is ignored: if rename offers edits then their ranges
are highlighted, and if it offers none then nothing is highlighted. -/
theorem C75_highlights (u : Uni) (cs : Bool) (void : List Str) (d : TextDoc) (roots : List Node)
    (o : Nat) (new : Str) (hd : Lawful d) (ho : isBoundary d.text o = true)
    (h : parse u cs void d.text = .ok roots) (hpl : PlainNames cs d.text roots)
    (hb : ∀ n, InForest roots n → NoBlank d.text (n.start + 1) ∧
      ∀ e, n.endTagStart = some e → NoBlank d.text (e + 2)) :
    findDocumentHighlights u cs d (d.posAt o) roots =
      .ok (((doRename d (d.posAt o) new roots).getD []).map (·.range)) := by
  have hoff : d.offsetAt (d.posAt o) = o := hd.roundTrip o (isBoundary_le ho) ho
  obtain ⟨rs, hrs, hnone, hsome⟩ := C30_highlights u cs void d roots (d.posAt o) h
  rw [hrs]
  congr 1
  rw [hoff] at hnone hsome
  cases hf : findNodeAt roots o with
  | none =>
    rw [hnone fun n hn => (C21_none_iff u cs void _ roots o h).1 hf n hn]
    unfold doRename
    rw [hoff]
    simp [hf]
  | some x =>
    obtain ⟨n, ps⟩ := x
    obtain ⟨h1, h2, _, h3⟩ := C21_innermost u cs void _ roots o n ps h hf
    obtain ⟨h4, h5⟩ := hsome n h1 h2 fun k hk => h3 k (InForest.root hk)
    rw [rename_eq d _ new (by rw [hoff]; exact hf)]
    cases ht : n.tag with
    | none => rw [h4 ht]; rfl
    | some t =>
      obtain ⟨rs', ⟨a, ha1, hr⟩, hyes, hno⟩ := h5 t ht
      obtain ⟨hb1, hb2⟩ := hb n h1
      have haa := nameAt_noBlank ha1 hb1
      subst haa
      obtain ⟨_, a2, a3, a4⟩ := start_bounds h h1 ht hb1
      simp only [Option.bind_some, hoff]
      rcases hr with ⟨he, rfl⟩ | ⟨e, t', a', he, ha2, hsame, hlt, hle, rfl⟩
      · have hcov : (∃ r ∈ [(⟨d.posAt (n.start + 1), d.posAt (n.start + 1 + t.length)⟩ : Range)],
            PosLe r.start (d.posAt o) ∧ PosLe (d.posAt o) r.stop) ↔ isWithinTagRange n o t = true := by
          unfold isWithinTagRange
          simp only [List.mem_singleton, exists_eq_left, he, Bool.false_or, decide_eq_true_eq]
          rw [posLe_iff hd a2 ho, posLe_iff hd ho a3]
        by_cases hw : isWithinTagRange n o t = true
        · rw [hyes (hcov.2 hw), if_pos hw, he]; rfl
        · rw [hno (fun hx => hw (hcov.1 hx)), if_neg hw]; rfl
      · have haa := nameAt_noBlank ha2 (hb2 e he)
        subst haa
        obtain ⟨t1, b0, b1, b2, b3, b4, _⟩ := end_bounds h h1 ht he (hb2 e he)
        obtain ⟨_, hat2, hmax, w, hw, hatw, hl0⟩ := ha2
        have hx : NameAfter d.text (e + 2) (some t') n.stop := by
          refine ⟨[], (by intro b hb; cases hb), (by simpa using hat2), (by assumption), ?_, ?_⟩
          · simpa using hmax
          · simpa using hle
        obtain ⟨hlen, _, _⟩ := plain_names hpl h1 ht he hx hsame
        obtain ⟨hlen1, _, _⟩ := plain_names hpl h1 ht he b0 b1
        rw [hlen1, ← hlen] at b4
        have hcov : (∃ r ∈ [(⟨d.posAt (n.start + 1), d.posAt (n.start + 1 + t.length)⟩ : Range),
            ⟨d.posAt (e + 2), d.posAt (e + 2 + t'.length)⟩],
            PosLe r.start (d.posAt o) ∧ PosLe (d.posAt o) r.stop) ↔ isWithinTagRange n o t = true := by
          unfold isWithinTagRange
          simp only [List.mem_cons, List.not_mem_nil, or_false, exists_eq_or_imp, exists_eq_left, he,
            Bool.or_eq_true, decide_eq_true_eq]
          rw [posLe_iff hd a2 ho, posLe_iff hd ho a3, posLe_iff hd b3 ho, posLe_iff hd ho b4, hlen]
          exact Or.comm
        by_cases hw : isWithinTagRange n o t = true
        · rw [hyes (hcov.2 hw), if_pos hw, he, hlen]; rfl
        · rw [hno (fun hx => hw (hcov.1 hx)), if_neg hw]; rfl

/-- C75, the limit: with a blank in front of the name the highlights are the names and the ranges of
rename are not. -/
theorem C75_blank_limit (u : Uni) (cs : Bool) :
    ∃ roots, parse u cs [] b!"< p></p>" = .ok roots ∧
      findDocumentHighlights u cs (.ref b!"< p></p>") ⟨0, 2⟩ roots =
        .ok [⟨⟨0, 2⟩, ⟨0, 3⟩⟩, ⟨⟨0, 6⟩, ⟨0, 7⟩⟩] ∧
      doRename (.ref b!"< p></p>") ⟨0, 2⟩ b!"q" roots =
        some [⟨⟨⟨0, 1⟩, ⟨0, 2⟩⟩, b!"q"⟩, ⟨⟨⟨0, 6⟩, ⟨0, 7⟩⟩, b!"q"⟩] := by
  refine ⟨[⟨some b!"p", 0, 8, [], true, some 4, some 4, []⟩], ?_, ?_, by decide⟩
  · cases cs <;> krfl
  · cases cs <;> krfl

example : returns (parse exUni false [b!"br"] b!"<p>\n<Div a>x</DIV></p>") (fun roots =>
    decide (findLinkedEditingRanges (.ref b!"<p>\n<Div a>x</DIV></p>") ⟨1, 11⟩ roots =
      some [⟨⟨1, 1⟩, ⟨1, 4⟩⟩, ⟨⟨1, 10⟩, ⟨1, 13⟩⟩]) &&
    decide ((doRename (.ref b!"<p>\n<Div a>x</DIV></p>") ⟨1, 11⟩ b!"q" roots).map (·.map (·.range)) =
      some [⟨⟨1, 1⟩, ⟨1, 4⟩⟩, ⟨⟨1, 10⟩, ⟨1, 13⟩⟩]) &&
    returns (findDocumentHighlights exUni false (.ref b!"<p>\n<Div a>x</DIV></p>") ⟨1, 11⟩ roots) (fun rs =>
      rs = [⟨⟨1, 1⟩, ⟨1, 4⟩⟩, ⟨⟨1, 10⟩, ⟨1, 13⟩⟩])) = true := by decide +kernel

end Html.Props
