import Verif.Proof.Accept
import Verif.Proof.AcceptPanics
import Verif.Props.Completion

/-! # Accepted completions: C72 -/

namespace Html.Props
open Html Spec

theorem proposed {e : CompEnv} {d : TextDoc} {position : Pos} {roots : List Node} {ts : List Tok}
    {a b v : Str} {cps : List Nat} (hd : d.text = a ++ b) (hu : Utf8 cps d.text)
    (h : parse e.uni e.caseSensitive e.void d.text = .ok roots)
    (ht : tokens (parserCfg e.uni e.caseSensitive d.text) (.new 0 .WithinContent) = .ok ts)
    (ho : d.offsetAt position = a.length) (hg : a.getLast? = some 62) (hc : NoCut ts a.length)
    (hr : doTagComplete e d position roots = .ok (some v)) :
    ∃ n t, InForest roots n ∧ n.startTagEnd = some a.length ∧ n.tag = some t ∧ t ∉ e.void ∧ Unclosed a.length n ∧
      v = b!"$0" ++ (b!"</" ++ t ++ b!">") := by
  obtain ⟨a0, rfl⟩ := List.getLast?_eq_some_iff.1 hg
  have hl : (a0 ++ [62]).length = a0.length + 1 := by simp
  have hget : d.text[a0.length]? = some 62 := by rw [hd]; simp
  have hbd : isBoundary d.text (a0.length + 1) = true := by
    obtain ⟨hu1, hu2⟩ := id hu
    have := utf8_ascii_next (cps := cps) hu1 (i := a0.length) (b := 62) (by rw [← hu2]; exact hget) (by decide)
    rw [hu2]; exact this
  rw [hl] at ho hc ⊢
  obtain ⟨r, h1, h2⟩ := C40_behind_start_tag e d position roots ts a0.length h ht ho hbd hget hc
  rw [h1] at hr
  cases hr
  obtain ⟨n, t, k1, k2, k3, k4, k5, k6⟩ := (h2 v).1 rfl
  exact ⟨n, t, k1, k2, k3, k4, k5, by rw [k6]; simp⟩

/-- C72: accepting the end tag that is proposed behind a start tag closes the element.  The proposed text is `$0`,
where the cursor is left, and `</t>`; in the text with `</t>` inserted at the cursor the element ends with this end
tag and has no children.  Everything in its start tag is unchanged.  (Elements `script` and `style` with upper-case
letters in their names are excepted.) -/
theorem C72_closes (e : CompEnv) (d : TextDoc) (position : Pos) (roots roots' : List Node) (ts : List Tok)
    (a b v : Str) (cps : List Nat) (hd : d.text = a ++ b) (hu : Utf8 cps d.text)
    (h : parse e.uni e.caseSensitive e.void d.text = .ok roots)
    (ht : tokens (parserCfg e.uni e.caseSensitive d.text) (.new 0 .WithinContent) = .ok ts)
    (ho : d.offsetAt position = a.length) (hg : a.getLast? = some 62) (hc : NoCut ts a.length)
    (hr : doTagComplete e d position roots = .ok (some v)) :
    ∃ n t, InForest roots n ∧ n.startTagEnd = some a.length ∧ n.tag = some t ∧ v = b!"$0" ++ (b!"</" ++ t ++ b!">") ∧
      (¬ OddRaw e.uni e.caseSensitive t →
        parse e.uni e.caseSensitive e.void (a ++ (b!"</" ++ t ++ b!">") ++ b) = .ok roots' →
        InForest roots' (closedAt n a.length t)) := by
  obtain ⟨n, t, k1, k2, k3, k4, k5, k6⟩ := proposed hd hu h ht ho hg hc hr
  refine ⟨n, t, k1, k2, k3, k6, fun hraw h' => ?_⟩
  rw [hd] at h hu ht
  obtain ⟨ts', hts', _⟩ := C13_one_node_per_bracket _ _ _ _ _ h'
  exact (accept_end_tag hu h k1 k2 k3 k4 k5 hraw h' ht hts').1

/-- C72: after that no further end tag is proposed there. -/
theorem C72_once (e : CompEnv) (d d' : TextDoc) (position position' : Pos) (roots roots' : List Node) (ts : List Tok)
    (a b t : Str) (cps : List Nat) (hd : d.text = a ++ b) (hu : Utf8 cps d.text)
    (h : parse e.uni e.caseSensitive e.void d.text = .ok roots)
    (ht : tokens (parserCfg e.uni e.caseSensitive d.text) (.new 0 .WithinContent) = .ok ts)
    (ho : d.offsetAt position = a.length) (hg : a.getLast? = some 62) (hc : NoCut ts a.length)
    (hr : doTagComplete e d position roots = .ok (some (b!"$0" ++ (b!"</" ++ t ++ b!">"))))
    (hraw : ¬ OddRaw e.uni e.caseSensitive t) (hd' : d'.text = a ++ (b!"</" ++ t ++ b!">") ++ b)
    (h' : parse e.uni e.caseSensitive e.void d'.text = .ok roots') (ho' : d'.offsetAt position' = a.length) :
    doTagComplete e d' position' roots' = .ok none := by
  obtain ⟨n, t1, k1, k2, k3, k4, k5, k6⟩ := proposed hd hu h ht ho hg hc hr
  have : t = t1 := by simpa using k6
  subst this
  rw [hd] at h hu ht
  obtain ⟨ts', hts', _⟩ := C13_one_node_per_bracket _ _ _ _ _ h'
  rw [hd'] at h' hts'
  obtain ⟨k7, k8⟩ := accept_end_tag hu h k1 k2 k3 k4 k5 hraw h' ht hts'
  have hc' := k8 hc
  obtain ⟨a0, rfl⟩ := List.getLast?_eq_some_iff.1 hg
  have hl : (a0 ++ [62]).length = a0.length + 1 := by simp
  have hget : d'.text[a0.length]? = some 62 := by rw [hd']; simp
  have hbd : isBoundary d'.text (a0.length + 1) = true := by
    unfold isBoundary
    have : d'.text[a0.length + 1]? = some 60 := by rw [hd']; simp
    rw [this]
    split
    · rfl
    · rfl
  rw [hl] at ho' hc'
  obtain ⟨r, h1, h2⟩ := C40_behind_start_tag e d' position' roots' ts' a0.length (by rw [hd']; exact h')
    (by rw [hd']; exact hts') ho' hbd hget hc'
  rw [h1]
  cases r with
  | none => rfl
  | some v =>
    exfalso
    obtain ⟨m, t2, m1, m2, m3, m4, m5, m6⟩ := (h2 v).1 rfl
    have hD : Doc e.uni e.caseSensitive e.void _ roots' ts' := ⟨h', hts'⟩
    have := hD.only m1 k7 m2 (by show n.startTagEnd = _; rw [k2, hl])
    subst this
    rcases m5 with m5 | ⟨es, m5, m7⟩
    · cases m5
    · rw [hl] at m5
      cases m5
      omega

/-- C72, for every UTF-8 document, even with tags that are cut short: behind the start tag of an element that is not void
and is unclosed its end tag is proposed.  Accepting it closes the element, and nothing is proposed again. -/
theorem C72_always (e : CompEnv) (d : TextDoc) (position : Pos) (roots : List Node) (n : Node)
    (a b t : Str) (cps : List Nat) (hd : d.text = a ++ b) (hu : Utf8 cps d.text)
    (h : parse e.uni e.caseSensitive e.void d.text = .ok roots) (ho : d.offsetAt position = a.length)
    (hn : InForest roots n) (hs : n.startTagEnd = some a.length) (ht : n.tag = some t) (hv : t ∉ e.void)
    (hc : Unclosed a.length n) :
    doTagComplete e d position roots = .ok (some (b!"$0" ++ (b!"</" ++ t ++ b!">"))) ∧
      (¬ OddRaw e.uni e.caseSensitive t → ∀ d' position' roots', d'.text = a ++ (b!"</" ++ t ++ b!">") ++ b →
        d'.offsetAt position' = a.length → parse e.uni e.caseSensitive e.void d'.text = .ok roots' →
        InForest roots' (closedAt n a.length t) ∧ doTagComplete e d' position' roots' = .ok none) := by
  have hat : ∃ a0, a = a0 ++ [62] := by
    obtain ⟨h1, h2, h3⟩ := (C14_offsets_point_at_brackets _ _ _ _ _ n h hn).2.1 _ hs
    obtain ⟨r, hr⟩ := h3
    have := congrArg (·[0]?) hr
    simp only [List.getElem?_drop, Nat.add_zero, hd] at this
    rw [List.getElem?_append_left (by omega)] at this
    have h4 : a.getLast? = some 62 := by rw [List.getLast?_eq_getElem?, this]; rfl
    obtain ⟨a0, rfl⟩ := List.getLast?_eq_some_iff.1 h4
    exact ⟨a0, rfl⟩
  obtain ⟨a0, ha⟩ := hat
  have hl : a.length = a0.length + 1 := by rw [ha]; simp
  refine ⟨?_, fun hraw d' position' roots' hd' ho' h' => ?_⟩
  · have hget : d.text[a0.length]? = some 62 := by rw [hd, ha]; simp
    have hbd : isBoundary d.text (a0.length + 1) = true := by
      obtain ⟨hu1, hu2⟩ := id hu
      have := utf8_ascii_next (cps := cps) hu1 (i := a0.length) (b := 62) (by rw [← hu2]; exact hget) (by decide)
      rw [hu2]; exact this
    rw [C40_always_closed e d position roots n t h (by rw [ho, hl]; exact hbd) hn (by rw [ho]; exact hs) ht hv
      (by rw [ho]; exact hc)]
    simp
  · rw [hd] at h hu
    obtain ⟨ts, hts, _⟩ := C13_one_node_per_bracket _ _ _ _ _ h
    obtain ⟨ts', hts', _⟩ := C13_one_node_per_bracket _ _ _ _ _ h'
    have D : Doc e.uni e.caseSensitive e.void d'.text roots' ts' := ⟨h', hts'⟩
    rw [hd'] at h' hts'
    have k := (accept_end_tag hu h hn hs ht hv hc hraw h' hts hts').1
    refine ⟨k, ?_⟩
    have hget : d'.text[a0.length]? = some 62 := by rw [hd', ha]; simp
    have hbd : isBoundary d'.text (a0.length + 1) = true := by
      unfold isBoundary
      have : d'.text[a0.length + 1]? = some 60 := by rw [hd', ha]; simp
      rw [this]
      split
      · rfl
      · rfl
    have := start_never D k (o := a.length) hs rfl
    unfold doTagComplete
    rw [ho']
    rw [hl] at this ⊢
    simp only [Nat.add_sub_cancel]
    rw [if_neg (by omega), if_pos (getStr_one.2 ⟨hget, isBoundary_of_get hget (by decide), hbd⟩), this]

/-- C72: and the text with the end tag is parsed, unless the element is `script` or `style`. -/
theorem C72_parsed (u : Uni) (cs : Bool) (void : List Str) (roots : List Node) (n : Node) (a b t : Str) (cps : List Nat)
    (hu : Utf8 cps (a ++ b)) (h : parse u cs void (a ++ b) = .ok roots) (hn : InForest roots n)
    (hs : n.startTagEnd = some a.length) (ht : n.tag = some t) (hv : t ∉ void) (hc : Unclosed a.length n)
    (hraw : comparedName u cs t ≠ b!"script" ∧ comparedName u cs t ≠ b!"style") :
    ∃ roots', parse u cs void (a ++ (b!"</" ++ t ++ b!">") ++ b) = .ok roots' ∧ InForest roots' (closedAt n a.length t) := by
  obtain ⟨roots', h'⟩ := accept_parsed hu h hn hs ht hv hc hraw
  obtain ⟨ts, hts, _⟩ := C13_one_node_per_bracket _ _ _ _ _ h
  obtain ⟨ts', hts', _⟩ := C13_one_node_per_bracket _ _ _ _ _ h'
  exact ⟨roots', h', (accept_end_tag hu h hn hs ht hv hc (fun h => h.1.elim hraw.1 hraw.2) h' hts hts').1⟩

/-- C72: for `script` the text with the end tag may fail to be parsed: what was the content of the element is scanned for
tags then. -/
theorem C72_script_limit (u : Uni) : ∃ roots,
    parse u false [] b!"<script><p type='é" = .ok roots ∧
      doTagComplete { exComp with uni := u } (.ref b!"<script><p type='é") ⟨0, 8⟩ roots = .ok (some b!"$0</script>") ∧
      parse u false [] b!"<script></script><p type='é" = .error .slice := by
  refine ⟨[⟨some b!"script", 0, 19, [], false, some 8, none, []⟩], ?_, ?_, ?_⟩
  · krfl
  · krfl
  · krfl

/-- The hypotheses are met even if a tag in front is cut short. -/
example : parse exUni false [] b!"<a <p b>" = .ok [⟨some b!"a", 0, 3, [], false, none, none, []⟩,
    ⟨some b!"p", 3, 8, [], false, some 8, none, [(b!"b", ⟨none, 6⟩)]⟩] := by krfl

example (u : Uni) : comparedName u true b!"p" ≠ b!"script" ∧ comparedName u true b!"p" ≠ b!"style" := by
  constructor <;> (show (b!"p" : Str) ≠ _) <;> decide

/-- C72: with upper-case letters in `script` the accepted end tag does not close the element. -/
theorem C72_upper_case (u : Uni) :
    ∃ roots roots', parse u false [] b!"<SCRIPT>" = .ok roots ∧
      doTagComplete { exComp with uni := u } (.ref b!"<SCRIPT>") ⟨0, 8⟩ roots = .ok (some b!"$0</SCRIPT>") ∧
      parse u false [] b!"<SCRIPT></SCRIPT>" = .ok roots' ∧ ∀ n, InForest roots' n → n.closed = false := by
  refine ⟨[⟨some b!"SCRIPT", 0, 8, [], false, some 8, none, []⟩], [⟨some b!"SCRIPT", 0, 17, [], false, some 8, none, []⟩], ?_, ?_, ?_, ?_⟩
  · krfl
  · krfl
  · krfl
  · intro n hn
    obtain ⟨d, hd, h⟩ := inForest_cases hn
    simp only [List.mem_singleton] at hd
    subst hd
    rcases h with rfl | h
    · rfl
    · obtain ⟨_, h, _⟩ := inForest_cases h
      cases h

/-- A document for the examples. -/
def exAccept : Str := b!"<ul><li a=x>é<li>"

example : ∃ cps, Utf8 cps exAccept := ⟨[60, 117, 108, 62, 60, 108, 105, 32, 97, 61, 120, 62, 233, 60, 108, 105, 62],
  by decide, by krfl⟩

example : returns (parse exUni false [] exAccept) (fun roots =>
    returns (doTagComplete exComp (.ref exAccept) ⟨0, 12⟩ roots) (fun r => r = some b!"$0</li>") &&
    returns (tokens (parserCfg exUni false exAccept) (.new 0 .WithinContent)) (fun ts =>
      ts.all (fun t => decide (t.offset < t.stop)))) = true := by
  decide +kernel

example : (TextDoc.ref exAccept).offsetAt ⟨0, 12⟩ = 12 ∧ (exAccept.take 12).getLast? = some 62 ∧
    ¬ OddRaw exUni false b!"li" := by
  refine ⟨by krfl, by krfl, ?_⟩
  rintro ⟨h | h, _⟩ <;> revert h <;> decide +kernel

example : returns (parse exUni false [] (exAccept.take 12 ++ (b!"</" ++ b!"li" ++ b!">") ++ exAccept.drop 12)) (fun roots =>
    (roots.flatMap (·.children)).any (fun n => n.start = 4 ∧ n.endTagStart = some 12 ∧ n.stop = 17 ∧ n.closed)) = true := by
  decide +kernel

end Html.Props
