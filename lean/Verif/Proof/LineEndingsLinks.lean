import Verif.Proof.LineEndingsSel
import Verif.Proof.LineEndingsFormat
import Verif.Proof.Links

/-! # Links with other line endings -/

namespace Html
open Spec

section
variable {e : LinkEnv} {d d' : TextDoc}

theorem linkLoop_fold {c : Cfg} {fuel : Nat} {f : LinkState} {s : Sc} {ts : List Tok} (h : tokensF c fuel s = .ok ts) :
    linkLoop e d c fuel f s = ts.foldlM (linkStep e d) f := by
  cases h1 : linkLoop e d c fuel f s with
  | ok r =>
    obtain ⟨ts', h2, h3⟩ := linkLoop_ok.1 h1
    cases h.symm.trans h2
    exact h3.symm
  | error x =>
    induction fuel generalizing f s ts with
    | zero => simp [tokensF] at h
    | succ n ih =>
      unfold linkLoop at h1
      unfold tokensF at h
      cases hs : scan c s with
      | error y => rw [hs] at h; cases h
      | ok s1 =>
        rw [hs] at h h1
        simp only [bind, Except.bind] at h h1
        by_cases he : s1.tokenType = .EOS
        · rw [if_pos he] at h1; cases h1
        · rw [if_neg he] at h h1
          cases h2 : tokensF c n s1 with
          | error y => rw [h2] at h; cases h
          | ok ts' =>
            rw [h2] at h
            cases h
            rw [List.foldlM_cons]
            cases h3 : linkStep e d f s1.tok with
            | error y => rw [h3] at h1; exact h1.symm
            | ok f1 =>
              rw [h3] at h1
              exact ih h2 h1

theorem names_on_line {c : Cfg} {fuel : Nat} {s : Sc} {ts : List Tok} (h : tokensF c fuel s = .ok ts) {t : Tok} (ht : t ∈ ts)
    (hk : t.type = .StartTag ∨ t.type = .EndTag ∨ t.type = .AttributeName) : 10 ∉ bytesIn c.src t.offset t.stop := by
  induction fuel generalizing s ts with
  | zero => simp [tokensF] at h
  | succ n ih =>
    unfold tokensF at h
    cases hs : scan c s with
    | error y => rw [hs] at h; cases h
    | ok s1 =>
      rw [hs] at h
      simp only [bind, Except.bind] at h
      by_cases he : s1.tokenType = .EOS
      · rw [if_pos he] at h
        cases h
        cases ht
      · rw [if_neg he] at h
        cases h2 : tokensF c n s1 with
        | error y => rw [h2] at h; cases h
        | ok ts' =>
          rw [h2] at h
          cases h
          rcases List.mem_cons.1 ht with rfl | ht
          · exact name_line hs hk
          · exact ih h2 ht

/-- The variables of the search in the other text. -/
def crLink (a : Str) (st : LinkState) : LinkState := { st with ids := st.ids.map (fun p => (p.1, crOff a p.2)) }

theorem slice_line (hd : OtherEnds d d') {i j : Nat} (h : 10 ∉ bytesIn d.text i j) :
    sliceStr d'.text (crOff d.text i) (crOff d.text j) = sliceStr d.text i j := by
  rw [hd.text, crlf_slice]
  cases hs : sliceStr d.text i j with
  | error x => rfl
  | ok r =>
    obtain ⟨_, _, _, _, rfl⟩ := sliceStr_ok hs
    simp only [Except.map, crlf_none h]

theorem createLink_cr (hd : OtherEnds d d') {i j : Nat} {v : Str} (hv : sliceStr d.text i j = .ok v) (h : 10 ∉ v)
    (base : Option Str) : createLink e d' v (crOff d.text i) (crOff d.text j) base = createLink e d v i j base := by
  obtain ⟨hij, hj, _, _, rfl⟩ := sliceStr_ok hv
  unfold createLink
  cases normalizeRef (bytesIn d.text i j) with
  | error _ => rfl
  | ok c =>
    simp only [bind, Except.bind]
    by_cases hc : c.length < (bytesIn d.text i j).length
    · have hlt : i < j := by
        rcases Nat.lt_or_ge i j with h0 | h0
        · exact h0
        · rw [show j = i by omega] at hc
          simp [bytesIn] at hc
      have h1 : crOff d.text i + 1 = crOff d.text (i + 1) :=
        crOff_same (n := j - i) (by rw [show i + (j - i) = j by omega]; exact h) (by omega)
      have h2 : crOff d.text (j - 1) + 1 = crOff d.text j := by
        have := crOff_same (a := d.text) (o := i) (n := j - i) (k := j - 1 - i) (by rw [show i + (j - i) = j by omega]; exact h) (by omega)
        have h3 := crOff_same (a := d.text) (o := i) (n := j - i) (k := j - i) (by rw [show i + (j - i) = j by omega]; exact h) (by omega)
        rw [show i + (j - 1 - i) = j - 1 by omega] at this
        rw [show i + (j - i) = j by omega] at h3
        omega
      have e1 : linkStop true (crOff d.text j) = .ok (crOff d.text (j - 1)) := by
        unfold linkStop
        rw [if_pos rfl, ← h2]
        show subU _ 1 = _
        unfold subU
        rw [if_pos (by omega)]
        simp
      have e2 : linkStop true j = .ok (j - 1) := by
        unfold linkStop
        rw [if_pos rfl]
        unfold subU
        rw [if_pos (by omega)]
      simp only [hc, decide_true, e1, e2, if_true, h1, hd.pos]
    · have e1 : ∀ k, linkStop false k = .ok k := fun _ => rfl
      simp only [hc, decide_false, e1, if_false, hd.pos]

theorem normalizeRef_eq (v : Str) : normalizeRef v = if bothQuotes v = true then sliceStr v 1 (v.length - 1) else .ok v := by
  unfold normalizeRef
  have : (v.length > 0 ∧ v.head? = v.getLast? ∧ (v.head? = some 39 ∨ v.head? = some 34)) ↔ bothQuotes v = true := by
    unfold bothQuotes
    simp only [Bool.or_eq_true, Bool.and_eq_true, beq_iff_eq]
    constructor
    · rintro ⟨_, h1, h2 | h2⟩
      · exact .inr ⟨h2, by rw [← h1, h2]⟩
      · exact .inl ⟨h2, by rw [← h1, h2]⟩
    · rintro (⟨h1, h2⟩ | ⟨h1, h2⟩)
      · exact ⟨by cases v <;> simp_all, by rw [h1, h2], .inr h1⟩
      · exact ⟨by cases v <;> simp_all, by rw [h1, h2], .inl h1⟩
  by_cases h : bothQuotes v = true
  · rw [if_pos h, if_pos (this.2 h)]
  · rw [if_neg h, if_neg (fun hx => h (this.1 hx))]

theorem normalizeRef_crlf (v : Str) : normalizeRef (crlf v) = (normalizeRef v).map crlf := by
  rw [normalizeRef_eq, normalizeRef_eq, crlf_bothQuotes]
  by_cases h : bothQuotes v = true
  · rw [if_pos h, if_pos h]
    have hs : sliceStr v 0 v.length = .ok v := by
      have h0 : isBoundary v 0 = true := by
        cases v with
        | nil => rfl
        | cons b v =>
          unfold bothQuotes at h
          simp only [List.head?_cons, Bool.or_eq_true, Bool.and_eq_true, beq_iff_eq, Option.some.injEq] at h
          rcases h with ⟨rfl, _⟩ | ⟨rfl, _⟩ <;> rfl
      simp [sliceStr, isBoundary_length, h0]
    obtain ⟨h1, h2⟩ := quotes_off hs h
    rw [crOff_zero] at h1
    rw [crOff_length] at h2
    rw [← crlf_slice, h1, ← h2]
  · rw [if_neg h, if_neg h]; rfl

theorem normalizeRef_eol {v c : Str} (hc : normalizeRef v = .ok c) (h : 10 ∈ v) : 10 ∈ c := by
  rw [normalizeRef_eq] at hc
  by_cases hq : bothQuotes v = true
  · rw [if_pos hq] at hc
    obtain ⟨h1, h2, _, _, rfl⟩ := sliceStr_ok hc
    obtain ⟨k, hk⟩ := List.mem_iff_getElem?.1 h
    have hlt : k < v.length := (List.getElem?_eq_some_iff.1 hk).1
    unfold bothQuotes at hq
    simp only [Bool.or_eq_true, Bool.and_eq_true, beq_iff_eq] at hq
    have k0 : k ≠ 0 := by
      rintro rfl
      rw [← List.head?_eq_getElem?] at hk
      rcases hq with ⟨h0, _⟩ | ⟨h0, _⟩ <;> rw [h0] at hk <;> cases hk
    have k1 : k ≠ v.length - 1 := by
      rintro rfl
      rw [← List.getLast?_eq_getElem?] at hk
      rcases hq with ⟨_, h0⟩ | ⟨_, h0⟩ <;> rw [h0] at hk <;> cases hk
    refine List.mem_iff_getElem?.2 ⟨k - 1, ?_⟩
    show ((v.take (v.length - 1)).drop 1)[k - 1]? = _
    rw [List.getElem?_drop, show 1 + (k - 1) = k by omega, List.getElem?_take, if_pos (by omega), hk]
  · rw [if_neg hq] at hc
    cases hc
    exact h

/-- A value with a line end is no link. -/
theorem createLink_eol {v : Str} {i j : Nat} (h : 10 ∈ v) (hj : 1 ≤ j) (base : Option Str) :
    createLink e d v i j base = (normalizeRef v).map (fun _ => none) := by
  unfold createLink
  cases hc : normalizeRef v with
  | error x => rfl
  | ok c =>
    have h10 := normalizeRef_eol hc h
    have hw : workspaceUrl e c base = .ok none := by
      unfold workspaceUrl
      rw [if_pos]
      unfold isJavascript
      rw [Bool.or_eq_true]
      exact .inr (List.any_eq_true.2 ⟨10, h10, rfl⟩)
    have hl : ∃ k, linkStop (decide (c.length < v.length)) j = .ok k := by
      unfold linkStop
      split
      · unfold subU
        rw [if_pos hj]
        exact ⟨_, rfl⟩
      · exact ⟨_, rfl⟩
    obtain ⟨k, hk⟩ := hl
    simp only [bind, Except.bind, hk, hw]
    split <;> rfl

theorem createLink_any (hd : OtherEnds d d') {i j : Nat} {v : Str} (hv : sliceStr d.text i j = .ok v)
    (base : Option Str) : createLink e d' (crlf v) (crOff d.text i) (crOff d.text j) base = createLink e d v i j base := by
  by_cases h : 10 ∈ v
  · have hj : 1 ≤ j := by
      obtain ⟨h1, _, _, _, rfl⟩ := sliceStr_ok hv
      rcases Nat.eq_zero_or_pos j with h0 | h0
      · subst h0; simp [bytesIn] at h
      · exact h0
    have hj' : 1 ≤ crOff d.text j := by
      have := crOff_add d.text 0 j
      rw [Nat.zero_add] at this
      omega
    rw [createLink_eol h hj, createLink_eol ((mem_crlf v).2 h) hj', normalizeRef_crlf]
    cases normalizeRef v <;> rfl
  · rw [crlf_none h]
    exact createLink_cr hd hv h base

theorem linkStep_cr (hd : OtherEnds d d') (st : LinkState) (t : Tok)
    (hn : (t.type = .StartTag ∨ t.type = .EndTag ∨ t.type = .AttributeName) → 10 ∉ bytesIn d.text t.offset t.stop)
    (hi : t.type = .AttributeValue → ∀ tag, st.lastTag = some tag → st.lastAttr = some b!"id" → 10 ∉ bytesIn d.text t.offset t.stop)
    (hb : t.type = .AttributeValue → ∀ tag attr, st.lastTag = some tag → st.lastAttr = some attr → isPathAttribute tag attr = true →
      st.inBase = true → 10 ∉ bytesIn d.text t.offset t.stop) :
    linkStep e d' (crLink d.text st) (crTok d.text t) = (linkStep e d st t).map (crLink d.text) := by
  obtain ⟨ty, o, s, er, ss⟩ := t
  simp only at hn hi hb
  unfold linkStep
  simp only [crTok]
  cases ty <;> try rfl
  · rw [slice_line hd (hn (by simp))]
    cases sliceStr d.text o s <;> rfl
  · rw [slice_line hd (hn (by simp))]
    cases sliceStr d.text o s <;> rfl
  · obtain ⟨links, la, lt, ib, base, ids⟩ := st
    simp only [crLink]
    simp only at hi hb
    cases lt with
    | none => rfl
    | some tag =>
      cases la with
      | none => rfl
      | some attr =>
        simp only
        by_cases hp : isPathAttribute tag attr = true
        · rw [if_pos hp, if_pos hp]
          unfold linkPath
          by_cases hib : ib = true
          · simp only [slice_line hd (hb trivial tag attr rfl rfl hp hib)]
            cases hs : sliceStr d.text o s with
            | error x => rfl
            | ok v =>
              simp only [bind, Except.bind, pathLinks, pathBase, hib, if_true]
              split
              · cases newBase e v <;> rfl
              · rfl
          · rw [hd.text, crlf_slice]
            cases hs : sliceStr d.text o s with
            | error x => rfl
            | ok v =>
              simp only [Except.map, bind, Except.bind, pathLinks, pathBase, hib]
              rw [createLink_any hd hs]
              cases createLink e d v o s base with
              | error x => rfl
              | ok r => cases r <;> rfl
        · rw [if_neg hp, if_neg hp]
          by_cases ha : attr = b!"id"
          · rw [if_pos ha, if_pos ha]
            unfold linkId
            simp only [slice_line hd (hi trivial tag rfl (by rw [ha]))]
            cases sliceStr d.text o s with
            | error x => rfl
            | ok v =>
              simp only [bind, Except.bind]
              cases normalizeRef v <;> rfl
          · rw [if_neg ha, if_neg ha]; rfl

theorem linkFold_cr (hd : OtherEnds d d') {c : Cfg} {all p ts : List Tok} (hall : tokens c (.new 0 .WithinContent) = .ok all)
    (hc : c.src = d.text) (hp : all = p ++ ts) {st : LinkState} (hinv : LinkInv e d p st)
    (hv : ∀ q ∈ splits all, isIdValue e d.text q = true ∨ (isPathValue e d.text q = true ∧ awaitsBase e d.text q.1) →
      10 ∉ bytesIn d.text q.2.offset q.2.stop) :
    (ts.map (crTok d.text)).foldlM (linkStep e d') (crLink d.text st) = (ts.foldlM (linkStep e d) st).map (crLink d.text) := by
  induction ts generalizing p st with
  | nil => rfl
  | cons t ts ih =>
    have hg : Grammatical (p ++ [t]) := Grammatical.left (us := ts) (by
      have := tokens_grammatical hall
      rw [hp] at this
      rw [List.append_assoc]; exact this)
    have hm : (p, t) ∈ splits all := mem_splits.2 ⟨ts, hp⟩
    rw [List.map_cons, List.foldlM_cons, List.foldlM_cons, linkStep_cr hd st t
      (fun hk => by
        rw [← hc]
        exact names_on_line hall (by rw [hp]; simp) hk)
      (fun hk tag h1 h2 => hv _ hm (.inl (by
        unfold isIdValue
        rw [← hinv.tag, h1, hinv.attr _ h2]
        simp [hk])))
      (fun hk tag attr h1 h2 h3 h4 => hv _ hm (.inr ⟨by
        unfold isPathValue
        rw [← hinv.tag, h1, hinv.attr _ h2]
        simp [hk, h3], hinv.inBase.1 h4⟩))]
    cases hs : linkStep e d st t with
    | error x => rfl
    | ok st1 => exact ih (p := p ++ [t]) (by rw [hp]; simp) (hinv.step hg hs)

theorem lookup_cr (a id : Str) (l : List (Str × Nat)) : (l.map (fun p => (p.1, crOff a p.2))).lookup id = (l.lookup id).map (crOff a) := by
  induction l with
  | nil => rfl
  | cons x l ih =>
    rw [List.map_cons, List.lookup_cons, List.lookup_cons]
    split
    · rfl
    · exact ih

theorem finishLink_cr (hd : OtherEnds d d') (ids : List (Str × Nat)) (l : DocLink) :
    finishLink e d' (ids.map (fun p => (p.1, crOff d.text p.2))) l = finishLink e d ids l := by
  unfold finishLink
  cases l.target with
  | none => rfl
  | some x =>
    simp only [lookup_cr]
    split
    · cases ids.lookup (x.drop (e.uri.length + 1)) with
      | none => rfl
      | some o => simp only [Option.map_some, hd.pos]
    · rfl

theorem links_cr {cps : List Nat} {ts : List Tok} (hd : OtherEnds d d') (hu : Utf8 cps d.text)
    (ht : tokens ⟨e.uni, d.text, false, e.caseSensitive⟩ (.new 0 .WithinContent) = .ok ts)
    (hv : ∀ q ∈ splits ts, isIdValue e d.text q = true ∨ (isPathValue e d.text q = true ∧ awaitsBase e d.text q.1) →
      10 ∉ bytesIn d.text q.2.offset q.2.stop) :
    findDocumentLinks e d' = findDocumentLinks e d := by
  have ht' := ln_tokens (c := ⟨e.uni, d.text, false, e.caseSensitive⟩) (c' := ⟨e.uni, crlf d.text, false, e.caseSensitive⟩)
    ⟨rfl, rfl, rfl, rfl, fit_of_utf8 hu⟩ 0 .WithinContent
  rw [ht, crOff_zero] at ht'
  unfold findDocumentLinks
  have e1 := linkLoop_fold (e := e) (d := d) (f := ⟨[], none, none, false, none, []⟩) ht
  have e2 := linkLoop_fold (e := e) (d := d') (f := ⟨[], none, none, false, none, []⟩) ht'
  have e3 := linkFold_cr (e := e) hd ht rfl (p := []) rfl (LinkInv.nil e d) hv
  have p0 : (Sc.new 0 SS.WithinContent).pos = 0 := rfl
  simp only [p0, Nat.sub_zero] at e1 e2
  rw [hd.text, e1, e2, show (⟨[], none, none, false, none, []⟩ : LinkState) = crLink d.text ⟨[], none, none, false, none, []⟩ from rfl, e3]
  show (Except.map (crLink d.text) (ts.foldlM (linkStep e d) ⟨[], none, none, false, none, []⟩) >>= _) = _
  have e4 : crLink d.text ⟨[], none, none, false, none, []⟩ = ⟨[], none, none, false, none, []⟩ := rfl
  rw [e4]
  cases ts.foldlM (linkStep e d) ⟨[], none, none, false, none, []⟩ with
  | error x => rfl
  | ok st =>
    simp only [Except.map, bind, Except.bind]
    show List.mapM (finishLink e d' (st.ids.map _)) st.links = _
    congr 1
    funext l
    exact finishLink_cr hd st.ids l

end

end Html
