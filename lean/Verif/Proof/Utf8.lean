import Verif.Proof.Tile

/-! # Character boundaries on valid UTF-8 -/

namespace Html
open Spec

theorem encodeCP_cons (cp : Nat) : ∃ b t, encodeCP cp = b :: t ∧ (∀ x ∈ t, 128 ≤ x ∧ x < 192) ∧
    (b < 128 → t = []) ∧ (cp < 0x110000 → isCont b = false) := by
  unfold encodeCP
  split
  · exact ⟨cp, [], rfl, by simp, fun _ => rfl, fun _ => by simp [isCont]; try omega⟩
  · split
    · refine ⟨_, _, rfl, ?_, fun h => by omega, fun _ => by simp [isCont]; try omega⟩
      intro x hx; simp at hx; omega
    · split
      · refine ⟨_, _, rfl, ?_, fun h => by omega, fun _ => by simp [isCont]; try omega⟩
        intro x hx; simp at hx; omega
      · refine ⟨_, _, rfl, ?_, fun h => by omega, fun _ => by simp [isCont]; try omega⟩
        intro x hx; simp at hx; omega

theorem codePoint_encodeCP {cp : Nat} (h : cp < 0x110000) (t : Str) :
    codePoint (encodeCP cp ++ t) = cp := by
  unfold encodeCP
  split
  · rename_i h1; simp [codePoint, h1]
  · split
    · rename_i h1 h2
      have e1 : ¬ 192 + cp / 64 < 128 := by omega
      have e2 : 192 + cp / 64 < 224 := by omega
      simp [codePoint, e1, e2]; omega
    · split
      · rename_i h1 h2 h3
        have e1 : ¬ 224 + cp / 4096 < 128 := by omega
        have e2 : ¬ 224 + cp / 4096 < 224 := by omega
        have e3 : 224 + cp / 4096 < 240 := by omega
        simp [codePoint, e1, e2, e3]; omega
      · rename_i h1 h2 h3
        have e1 : ¬ 240 + cp / 262144 < 128 := by omega
        have e2 : ¬ 240 + cp / 262144 < 224 := by omega
        have e3 : ¬ 240 + cp / 262144 < 240 := by omega
        simp [codePoint, e1, e2, e3]; omega

/-- Boundaries of encoded text are the boundaries between code points. -/
theorem utf8_boundary {cps : List Nat} (hc : ∀ c ∈ cps, c < 0x110000) {i : Nat}
    (hb : isBoundary (cps.flatMap encodeCP) i = true) :
    ∃ k, (cps.flatMap encodeCP).drop i = (cps.drop k).flatMap encodeCP := by
  induction cps generalizing i with
  | nil => exact ⟨0, by simp⟩
  | cons cp cps ih =>
    rcases Nat.eq_zero_or_pos i with rfl | hi
    · exact ⟨0, by simp⟩
    · obtain ⟨b, t, he, h1, h2, h3⟩ := encodeCP_cons cp
      simp only [List.flatMap_cons] at hb ⊢
      by_cases hlt : i < (encodeCP cp).length
      · exfalso
        have hl : i < (encodeCP cp ++ cps.flatMap encodeCP).length := by simp; omega
        rw [isBoundary_cont hl, List.getElem_append_left hlt] at hb
        have : isCont (encodeCP cp)[i] = true := by
          have hm : (encodeCP cp)[i] ∈ t := by
            simp only [he]
            rw [List.getElem_cons]
            rw [dif_neg (by omega)]
            exact List.getElem_mem _
          have := h1 _ hm
          simp [isCont]; omega
        rw [this] at hb; cases hb
      · have hge : (encodeCP cp).length ≤ i := by omega
        have hd : (encodeCP cp ++ cps.flatMap encodeCP).drop i =
            (cps.flatMap encodeCP).drop (i - (encodeCP cp).length) := by
          rw [List.drop_append]
          rw [List.drop_eq_nil_of_le hge]; rfl
        have hb' : isBoundary (cps.flatMap encodeCP) (i - (encodeCP cp).length) = true := by
          have := isBoundary_drop (s := encodeCP cp ++ cps.flatMap encodeCP) (a := (encodeCP cp).length)
            (i := i - (encodeCP cp).length) (by simp)
          rw [List.drop_left] at this
          rw [this]
          have e : (encodeCP cp).length + (i - (encodeCP cp).length) = i := by omega
          rw [e]; exact hb
        obtain ⟨k, hk⟩ := ih (fun c hc' => hc c (List.mem_cons_of_mem _ hc')) hb'
        exact ⟨k + 1, by rw [hd, hk]; rfl⟩

theorem utf8_start {cps : List Nat} (hc : ∀ c ∈ cps, c < 0x110000) :
    isBoundary (cps.flatMap encodeCP) 0 = true := by
  cases cps with
  | nil => rfl
  | cons cp cps =>
    obtain ⟨b, t, he, _, _, h3⟩ := encodeCP_cons cp
    rw [List.flatMap_cons, he, List.cons_append]
    exact isBoundary_of_get (by rfl) (h3 (hc cp (List.mem_cons_self ..)))

/-- After an ASCII byte there is a boundary. -/
theorem utf8_ascii_next {cps : List Nat} (hc : ∀ c ∈ cps, c < 0x110000) {i b : Nat}
    (hg : (cps.flatMap encodeCP)[i]? = some b) (hb : b < 128) :
    isBoundary (cps.flatMap encodeCP) (i + 1) = true := by
  have hbd : isBoundary (cps.flatMap encodeCP) i = true :=
    isBoundary_of_get hg (by simp [isCont]; omega)
  obtain ⟨k, hk⟩ := utf8_boundary hc hbd
  have hlt : i < (cps.flatMap encodeCP).length := (List.getElem?_eq_some_iff.1 hg).1
  have hdr := isBoundary_drop (s := cps.flatMap encodeCP) (a := i) (i := 1) (by omega)
  rw [← hdr, hk]
  have hh : ((cps.drop k).flatMap encodeCP).head? = some b := by rw [← hk]; simpa using hg
  cases hck : cps.drop k with
  | nil => rw [hck] at hh; simp at hh
  | cons cp r =>
    rw [hck] at hh
    obtain ⟨b', t, he, h1, h2, h3⟩ := encodeCP_cons cp
    rw [List.flatMap_cons, he] at hh ⊢
    simp at hh
    subst hh
    rw [h2 hb]
    have hr : ∀ c ∈ r, c < 0x110000 := by
      intro c hcr
      apply hc
      have : c ∈ cps.drop k := by rw [hck]; exact List.mem_cons_of_mem _ hcr
      exact List.mem_of_mem_drop this
    have := isBoundary_drop (s := [b'] ++ r.flatMap encodeCP) (a := 1) (i := 0) (by simp)
    simp only [Nat.add_zero] at this
    rw [← this]
    exact utf8_start hr

/-- After an ASCII byte there is a character boundary (true for every UTF-8 text). -/
def AsciiNext (src : Str) : Prop :=
  ∀ i b, src[i]? = some b → b < 128 → isBoundary src (i + 1) = true

/-- What the scanner needs to know about a text to slice it safely. -/
structure Clean (src : Str) : Prop where
  next : AsciiNext src
  attr : ∀ i b, isBoundary src i = true → src[i]? = some b → 128 ≤ b → 0 < attrNameLen (src.drop i)
  last : src ≠ [] → isBoundary src (src.length - 1) = true

theorem attrNameChar_of {cp : Nat} (h1 : 128 ≤ cp) (h2 : ¬ OddSpace cp) : attrNameChar cp = true := by
  unfold OddSpace at h2
  unfold attrNameChar isSpaceCP
  simp only [Bool.not_eq_true', Bool.or_eq_false_iff, Bool.and_eq_false_iff, decide_eq_false_iff_not,
    beq_eq_false_iff_ne, ne_eq]
  omega

theorem clean_of_utf8 {cps : List Nat} {src : Str} (h : Utf8 cps src) (ho : ∀ c ∈ cps, ¬ OddSpace c)
    (hl : ∀ b, src.getLast? = some b → b < 128) : Clean src := by
  obtain ⟨hc, rfl⟩ := h
  refine ⟨fun i b => utf8_ascii_next hc, ?_, ?_⟩
  · intro i b hb hg h128
    obtain ⟨k, hk⟩ := utf8_boundary hc hb
    rw [hk]
    cases hck : cps.drop k with
    | nil =>
      rw [hck] at hk
      have : ((cps.flatMap encodeCP).drop i).head? = some b := by simpa using hg
      rw [hk] at this; simp at this
    | cons cp r =>
      have hm : cp ∈ cps := List.mem_of_mem_drop (by rw [hck]; exact List.mem_cons_self ..)
      have hh : ((cps.drop k).flatMap encodeCP).head? = some b := by rw [← hk]; simpa using hg
      rw [hck] at hh
      have hcp := codePoint_encodeCP (hc cp hm) (r.flatMap encodeCP)
      rw [List.flatMap_cons] at hh ⊢
      have h128' : 128 ≤ cp := by
        rcases Nat.lt_or_ge cp 128 with hlt | hge
        · simp [encodeCP, hlt] at hh; omega
        · exact hge
      have := attrNameChar_of h128' (ho cp hm)
      obtain ⟨b', t, he, _⟩ := encodeCP_cons cp
      rw [he] at hcp ⊢
      unfold attrNameLen
      simp only [List.cons_append, firstRunLen] at hcp ⊢
      rw [hcp, this]
      simp
      omega
  · intro hne
    cases hgl : (cps.flatMap encodeCP).getLast? with
    | none => simp [List.getLast?_eq_none_iff] at hgl; exact absurd (by simpa using hgl) hne
    | some b =>
      have hb := hl b hgl
      rw [List.getLast?_eq_getElem?] at hgl
      exact isBoundary_of_get hgl (by simp [isCont]; omega)

theorem utf8_of_ascii {src : Str} (ha : isAscii src) : Utf8 src src := by
  refine ⟨fun c hc => ?_, ?_⟩
  · have := ha c hc; omega
  · induction src with
    | nil => rfl
    | cons b l ih =>
      have hb : b < 128 := ha b (by simp)
      rw [List.flatMap_cons, ← ih (fun c hc => ha c (by simp [hc]))]
      simp [encodeCP, hb]

theorem clean_of_ascii {src : Str} (h : isAscii src) : Clean src := by
  refine ⟨fun i b hg _ => isAscii_boundary h ?_, ?_, fun _ => isAscii_boundary h (by omega)⟩
  · have := (List.getElem?_eq_some_iff.1 hg).1; omega
  · intro i b _ hg h128
    have := h b (List.mem_of_getElem? hg)
    omega

/-! ### No scan of a clean text panics -/

/-- Where a scanner may stand off a boundary. -/
def BInv (c : Cfg) (s : Sc) : Prop :=
  isBoundary c.src s.pos = true ∨ s.state = .WithinContent ∨
    (s.state = .WithinTag ∧ s.hasSpace = false)

theorem AsciiNext.after {src : Str} (h : AsciiNext src) {p n b : Nat} (hg : (src.drop p)[n]? = some b)
    (hb : b < 128) : isBoundary src (p + (n + 1)) = true := by
  rw [List.getElem?_drop] at hg
  have := h _ _ hg hb
  rwa [Nat.add_assoc] at this

theorem prefix_get {l r : Str} (h : l.isPrefixOf r = true) {i b : Nat} (hi : l[i]? = some b) :
    r[i]? = some b := by
  rw [List.isPrefixOf_iff_prefix] at h
  obtain ⟨t, rfl⟩ := h
  rw [List.getElem?_append_left (List.getElem?_eq_some_iff.1 hi).1]
  exact hi

theorem AsciiNext.prefixLen {src : Str} (h : AsciiNext src) {p : Nat} {l : Str}
    (hp : l.isPrefixOf (src.drop p) = true) {b n : Nat} (hn : l.length = n + 1)
    (hl : l[n]? = some b) (hb : b < 128) :
    isBoundary src (p + l.length) = true := by
  rw [hn]; exact h.after (prefix_get hp hl) hb

theorem untilByte_boundary {src : Str} {p b : Nat} (hb : b < 128) (hp : p ≤ src.length) :
    isBoundary src (p + untilByte b (src.drop p)) = true := by
  rw [← isBoundary_drop hp]
  by_cases h : untilByte b (src.drop p) < (src.drop p).length
  · exact isBoundary_of_get (untilByte_get h) (by simp [isCont]; omega)
  · have := untilByte_le b (src.drop p)
    have e : untilByte b (src.drop p) = (src.drop p).length := by omega
    rw [e]; exact isBoundary_length _

theorem untilLit_boundary {src l : Str} {p b : Nat} (hl : l.head? = some b) (hb : b < 128)
    (hp : p ≤ src.length) : isBoundary src (p + untilLit l (src.drop p)) = true := by
  rw [← isBoundary_drop hp]
  by_cases h : untilLit l (src.drop p) < (src.drop p).length
  · have h1 := untilLit_prefix h
    obtain ⟨t, rfl⟩ : ∃ t, l = b :: t := head_cons hl
    have := prefix_get h1 (i := 0) (b := b) rfl
    rw [List.getElem?_drop] at this
    exact isBoundary_of_get this (by simp [isCont]; omega)
  · have := untilLit_le l (src.drop p)
    have e : untilLit l (src.drop p) = (src.drop p).length := by omega
    rw [e]; exact isBoundary_length _

theorem AsciiNext.ws {src : Str} (h : AsciiNext src) {p : Nat} (h0 : 0 < wsLen (src.drop p)) :
    isBoundary src (p + wsLen (src.drop p)) = true := by
  have hle := wsLen_le (src.drop p)
  have hlt : wsLen (src.drop p) - 1 < (src.drop p).length := by omega
  have hm : (src.drop p)[wsLen (src.drop p) - 1] ∈ (src.drop p).take (wsLen (src.drop p)) := by
    rw [List.mem_iff_getElem?]
    refine ⟨wsLen (src.drop p) - 1, ?_⟩
    rw [List.getElem?_take, if_pos (by omega), List.getElem?_eq_getElem hlt]
  have hw := wsLen_all hm
  have := h.after (p := p) (n := wsLen (src.drop p) - 1) (List.getElem?_eq_getElem hlt)
    (by simp only [isWs, Bool.or_eq_true, beq_iff_eq] at hw; omega)
  rwa [Nat.sub_add_cancel h0] at this

theorem AsciiNext.scriptTail {src : Str} (h : AsciiNext src) {p : Nat} (hp : p ≤ src.length) :
    isBoundary src (p + scriptTailLen (src.drop p)) = true := by
  have hr := runLen_boundary isSpaceCP (src.drop p)
  rw [isBoundary_drop hp] at hr
  have h1 := runLen_le isSpaceCP (src.drop p)
  simp only [List.length_drop] at h1
  unfold scriptTailLen
  simp only [List.drop_drop]
  by_cases hk : (List.drop (p + runLen isSpaceCP (List.drop p src)) src).head? = some 47
  · simp only [hk, if_true]
    have h2 : isBoundary src (p + runLen isSpaceCP (src.drop p) + 1) = true :=
      h.after (n := 0) (by simpa using hk) (by omega)
    split
    · rename_i hk2
      have := h.after (p := p + runLen isSpaceCP (src.drop p) + 1) (n := 0) (by simpa using hk2) (by omega)
      have e : p + (runLen isSpaceCP (src.drop p) + 1 + 1) = p + runLen isSpaceCP (src.drop p) + 1 + (0 + 1) := by omega
      rw [e]; exact this
    · have e : p + (runLen isSpaceCP (src.drop p) + 1 + 0) = p + runLen isSpaceCP (src.drop p) + 1 := by omega
      rw [e]; exact h2
  · simp only [hk, if_false]
    split
    · rename_i hk2
      have := h.after (p := p + runLen isSpaceCP (src.drop p)) (n := 0) (by simpa using hk2) (by omega)
      have e : p + (runLen isSpaceCP (src.drop p) + 0 + 1) = p + runLen isSpaceCP (src.drop p) + (0 + 1) := by omega
      rw [e]; exact this
    · exact hr

theorem AsciiNext.scriptMatch {src : Str} (h : AsciiNext src) {p n : Nat} {k : ScriptMatch}
    (hm : scriptMatchAt (src.drop p) = some (k, n)) : isBoundary src (p + n) = true := by
  unfold scriptMatchAt at hm
  split at hm
  · rename_i hp; cases hm; exact h.prefixLen hp (n := 3) rfl rfl (by omega)
  · split at hm
    · rename_i hp; cases hm; exact h.prefixLen hp (n := 2) rfl rfl (by omega)
    · split at hm
      · rename_i hp; cases hm
        have h1 := isPrefixOf_length hp
        simp at h1
        have := h.scriptTail (p := p + 7) (by omega)
        rw [List.drop_drop]; rwa [Nat.add_assoc] at this
      · split at hm
        · rename_i hp; cases hm
          have h1 := isPrefixOf_length hp
          simp at h1
          have := h.scriptTail (p := p + 8) (by omega)
          rw [List.drop_drop]; rwa [Nat.add_assoc] at this
        · cases hm

theorem AsciiNext.scriptLoop {c : Cfg} (h : AsciiNext c.src) {f st pos : Nat} {e : Panic}
    (hf : c.src.length - pos < f) (hb : isBoundary c.src pos = true) :
    scriptLoop c f st pos ≠ .error e := by
  induction f generalizing st pos with
  | zero => omega
  | succ f ih =>
    intro he
    unfold Html.scriptLoop at he
    split at he
    · cases he
    · rw [sliceStr_eq (isBoundary_le hb) hb (isBoundary_length _), bytesIn_to_end] at he
      change (match scriptFind (List.drop pos c.src) with
        | none => _
        | some (k, i, n) => _) = _ at he
      split at he
      · cases he
      · rename_i k i n hfd
        obtain ⟨hn, hin, hma⟩ := scriptFind_le hfd
        rw [List.drop_drop] at hma
        have hb' := h.scriptMatch hma
        simp only [List.length_drop] at hin
        have hf' : c.src.length - (pos + i + n) < f := by omega
        simp only at he
        split at he
        · exact ih hf' hb' he
        · exact ih hf' hb' he
        · exact ih hf' hb' he
        · split at he
          · exact ih hf' hb' he
          · simp [subU, bind, Except.bind] at he

theorem Clean.quoted {c : Cfg} (h : Clean c.src) {s : Sc} {q : Nat} (hq : q = 39 ∨ q = 34)
    (h1 : (rest c s).head? = some q) :
    isBoundary c.src (s.pos + quotedLen q (rest c s)) = true ∧
    isBoundary c.src (s.pos + 1) = true ∧
    isBoundary c.src (s.pos + quotedLen q (rest c s) - 1) = true := by
  have hp : s.pos < c.src.length := (List.getElem?_eq_some_iff.1 (rest_get h1)).1
  have hb1 : isBoundary c.src (s.pos + 1) = true := h.next _ _ (rest_get h1) (by omega)
  have hle := untilByte_le q (List.drop 1 (rest c s))
  have hlen := rest_length c s
  simp only [List.length_drop] at hle
  unfold quotedLen
  simp only
  split
  · rename_i hlt
    have hg := untilByte_get (c := q) (s := List.drop 1 (rest c s)) (by rw [List.length_drop]; omega)
    rw [List.getElem?_drop] at hg
    have h2 := h.next.after (p := s.pos) hg (by omega)
    have e : s.pos + (2 + untilByte q (List.drop 1 (rest c s))) =
      s.pos + (1 + untilByte q (List.drop 1 (rest c s)) + 1) := by omega
    refine ⟨by rw [e]; exact h2, hb1, ?_⟩
    rw [rest, List.getElem?_drop] at hg
    have e2 : s.pos + (2 + untilByte q (List.drop 1 (rest c s))) - 1 =
      s.pos + (1 + untilByte q (List.drop 1 (List.drop s.pos c.src))) := by
        unfold rest; omega
    rw [e2]
    exact isBoundary_of_get hg (by simp [isCont]; omega)
  · have e : s.pos + (1 + untilByte q (List.drop 1 (rest c s))) = c.src.length := by omega
    rw [e]
    exact ⟨isBoundary_length _, hb1, h.last (by intro h0; rw [h0] at hp; simp at hp)⟩

theorem AsciiNext.unquoted {c : Cfg} (h : AsciiNext c.src) {s : Sc} (h0 : 0 < unquotedLen (rest c s)) :
    isBoundary c.src (s.pos + unquotedFullLen (rest c s)) = true := by
  have hr : isBoundary (rest c s) (unquotedLen (rest c s)) = true := firstRunLen_boundary h0
  have hp : s.pos ≤ c.src.length := by
    have := unquotedLen_le (rest c s)
    rw [rest_length] at this; omega
  rw [rest, isBoundary_drop hp] at hr
  unfold unquotedFullLen
  simp only [List.head?_drop]
  split
  · rename_i hq
    rw [rest, List.getElem?_drop, ← rest] at hq
    rw [← Nat.add_assoc]
    rcases hq with hq | hq <;> exact h _ _ hq (by omega)
  · exact hr

theorem scan_clean {c : Cfg} {s : Sc} {e : Panic} (h : Clean c.src) (hi : BInv c s) :
    scan c s ≠ .error e := by
  intro he
  rw [scan_eq_internalScan] at he
  obtain ⟨_, hp, h1 | h1 | h1 | h1 | h1⟩ := internalScan_err he
  · obtain ⟨hb, h1⟩ := h1
    rcases hi with hi | hi | ⟨hi, hi2⟩
    · rw [hb] at hi; cases hi
    · simp [hi] at h1
    · simp [hi, hi2] at h1
  · obtain ⟨_, h2, _, h3⟩ := h1
    rw [h.next _ _ (rest_get h2) (by omega)] at h3; cases h3
  · rcases hi with hi | hi | ⟨hi, hi2⟩
    · exact h.next.scriptLoop (by omega) hi h1.2
    · rw [h1.1] at hi; cases hi
    · rw [h1.1] at hi; cases hi
  · obtain ⟨_, _, hb, q, hq, hh, e', he'⟩ := h1
    obtain ⟨_, b2, b3⟩ := h.quoted hq hh
    apply (sliceStr_err he').2
    refine ⟨by omega, ?_, ?_⟩
    · rcases Nat.le_total (s.pos + 1) (s.pos + quotedLen q (rest c s) - 1) with hle | hle
      · rw [Nat.min_eq_left hle]; exact b2
      · rw [Nat.min_eq_right hle]; exact b3
    · rcases Nat.le_total (s.pos + 1) (s.pos + quotedLen q (rest c s) - 1) with hle | hle
      · rw [Nat.max_eq_right hle]; exact b3
      · rw [Nat.max_eq_left hle]; exact b2
  · obtain ⟨_, hb, q, hq, hh, hn⟩ := h1
    rw [List.head?_drop] at hh
    have := h.next.after (p := s.pos) hh (by omega)
    rw [Nat.add_assoc] at hn
    rw [this] at hn; cases hn

/-! ### The invariant is kept -/

theorem AsciiNext.head {c : Cfg} (h : AsciiNext c.src) {s : Sc} {b : Nat} (h1 : (rest c s).head? = some b)
    (hb : b < 128) : isBoundary c.src (s.pos + 1) = true := h _ _ (rest_get h1) hb

theorem StepContent.binv {c : Cfg} {s s' : Sc} (h : StepContent c s s') (hc : AsciiNext c.src)
    (hp : s.pos < c.src.length) : BInv c s' := by
  cases h with
  | startComment h => exact .inl (hc.prefixLen h (n := 3) rfl rfl (by omega))
  | startDoctype h hb =>
    left
    show isBoundary c.src (s.pos + 9) = true
    have := prefix_get h (i := 8) (b := 101) rfl
    rw [List.getElem?_map] at this
    simp only [Option.map_eq_some_iff] at this
    obtain ⟨b, hb1, hb2⟩ := this
    exact hc.after hb1 (by unfold lowerByte at hb2; split at hb2 <;> omega)
  | endTagOpen h => exact .inl (hc.prefixLen h (n := 1) rfl rfl (by omega))
  | startTagOpen h => exact .inl (hc.head h (by omega))
  | content h h0 => exact .inl (untilByte_boundary (by omega) (by omega))

theorem StepTag.binv {c : Cfg} {s s' : Sc} (h : StepTag c s s') (hc : Clean c.src)
    (hp : s.pos < c.src.length) (hi : isBoundary c.src s.pos = true ∨ s.hasSpace = false)
    (hs : s.state = .WithinTag) : BInv c s' := by
  cases h with
  | ws h => exact .inl (hc.next.ws h)
  | attrName hs hw hb h =>
    left
    have : isBoundary (rest c s) (attrNameLen (rest c s)) = true := firstRunLen_boundary h
    rw [rest, isBoundary_drop (by omega)] at this
    exact this
  | selfClose s1 hp1 h =>
    left
    show isBoundary c.src (s1.pos + 2) = true
    rw [hp1.pos_eq]
    exact hc.next.prefixLen h (n := 1) rfl rfl (by omega)
  | close s1 hp1 h =>
    left
    show isBoundary c.src (s1.pos + 1) = true
    rw [hp1.pos_eq]
    exact hc.next.head h (by omega)
  | pseudo s1 hp1 he h => exact .inr (.inl rfl)
  | unknown s1 hp1 h0 =>
    cases hp1 with
    | noSpace h => exact .inr (.inr ⟨hs, h⟩)
    | equals h hb hn he => exact .inr (.inr ⟨hs, rfl⟩)
    | other h hb hn he =>
      left
      show isBoundary c.src (s.pos + 1) = true
      have hg := List.getElem?_eq_getElem hp
      rcases Nat.lt_or_ge c.src[s.pos] 128 with hlt | hge
      · exact hc.next _ _ hg hlt
      · have := hc.attr _ _ hb hg hge
        unfold rest at hn; omega

theorem Step.binv {c : Cfg} {s s' : Sc} (h : Step c s s') (hc : Clean c.src) (hi : BInv c s) :
    BInv c s' := by
  cases h with
  | eos h => exact hi
  | content _ h hs hx => exact hx.binv hc.next h
  | commentEnd h hs hx => exact .inr (.inl rfl)
  | comment h hs hx h0 => exact .inl (untilLit_boundary (b := 45) rfl (by omega) (by omega))
  | doctypeEnd h hs hx => exact .inr (.inl rfl)
  | doctype h hs hx h0 => exact .inl (untilByte_boundary (by omega) (by omega))
  | endTagName h hs hb h0 =>
    left
    have : isBoundary (rest c s) (elementNameLen c.uni (rest c s)) = true := firstRunLen_boundary h0
    rw [rest, isBoundary_drop (by omega)] at this
    exact this
  | endTagWs h hs hb hn h0 => exact .inl (hc.next.ws h0)
  | endTagNoName h hs hb hn hw h0 => exact .inl (untilByte_boundary (by omega) (by omega))
  | endTagImmediate h hs hb hn hw h0 => exact .inr (.inl rfl)
  | endTag _ h hs hx =>
    cases hx with
    | ws h0 => exact .inl (hc.next.ws h0)
    | close h0 => exact .inr (.inl rfl)
    | pseudo he h0 => exact .inr (.inl rfl)
    | unknown => exact .inr (.inl rfl)
  | startTagName h hs hb h0 =>
    left
    have : isBoundary (rest c s) (elementNameLen c.uni (rest c s)) = true := firstRunLen_boundary h0
    rw [rest, isBoundary_drop (by omega)] at this
    exact this
  | startTagWs h hs hb hn h0 => exact .inl (hc.next.ws h0)
  | startTagNoName h hs hb hn hw h0 => exact .inl (untilByte_boundary (by omega) (by omega))
  | startTagImmediate h hs hb hn hw h0 => exact .inr (.inl rfl)
  | tag _ h hs hx =>
    refine hx.binv hc h ?_ hs
    rcases hi with hi | hi | ⟨_, hi⟩
    · exact .inl hi
    · rw [hs] at hi; cases hi
    · exact .inr hi
  | afterNameWs h hs h0 => exact .inl (hc.next.ws h0)
  | assign h hs hw h0 => exact .inl (hc.next.head h0 (by omega))
  | afterNameTag _ h hs hw h0 hx =>
    refine hx.binv hc h ?_ rfl
    rcases hi with hi | hi | ⟨hi, _⟩
    · exact .inl hi
    · rw [hs] at hi; cases hi
    · rw [hs] at hi; cases hi
  | valueWs h hs h0 => exact .inl (hc.next.ws h0)
  | valueUnquoted h hs hw hb h0 => exact .inl (hc.next.unquoted h0)
  | valueQuoted h hs hw hb h0 q hq h1 => exact .inl (hc.quoted hq h1).1
  | valueTag _ h hs hw hb h0 h1 hx => exact hx.binv hc h (.inl hb) rfl
  | script p st h hs hp hl hst =>
    rcases hst with ⟨rfl, _⟩ | ⟨rfl, rfl, _⟩
    · exact .inr (.inl rfl)
    · exact .inl (isBoundary_length _)
  | scriptContent _ h hs hl hx => exact hx.binv hc.next h
  | style h hs hb h0 => exact .inr (.inl rfl)
  | styleContent _ h hs hb h0 hx => exact hx.binv hc.next h

theorem tokensF_clean {c : Cfg} {f : Nat} {s : Sc} (h : Clean c.src) (hi : BInv c s)
    (hf : mu c s < f) : ∃ ts, tokensF c f s = .ok ts := by
  induction f generalizing s with
  | zero => omega
  | succ f ih =>
    cases h1 : scan c s with
    | error e => exact absurd h1 (scan_clean h hi)
    | ok s1 =>
      by_cases he : s1.tokenType = .EOS
      · exact ⟨[], by unfold tokensF; rw [h1]; simp [bind, Except.bind, he, pure, Except.pure]⟩
      · have hst := scan_step h1
        have := hst.mu_lt he
        obtain ⟨ts, hts⟩ := ih (hst.binv h hi) (by omega)
        exact ⟨s1.tok :: ts, by
          unfold tokensF; rw [h1]; simp [bind, Except.bind, he, pure, Except.pure, hts]⟩

theorem scanN_clean {c : Cfg} {n : Nat} {s : Sc} (h : Clean c.src) (hi : BInv c s) :
    ∃ s', scanN c n s = .ok s' := by
  induction n generalizing s with
  | zero => exact ⟨s, rfl⟩
  | succ n ih =>
    cases h1 : scan c s with
    | error e => exact absurd h1 (scan_clean h hi)
    | ok s1 =>
      obtain ⟨s', hs'⟩ := ih ((scan_step h1).binv h hi)
      exact ⟨s', by unfold scanN; rw [h1]; exact hs'⟩

/-- The token types whose text the parser asks for. -/
def named : TT → Bool
  | .StartTag | .EndTag | .AttributeName | .AttributeValue => true
  | _ => false

theorem AsciiNext.quoted {c : Cfg} (h : AsciiNext c.src) {s : Sc} {q : Nat} (hq : q = 39 ∨ q = 34)
    (h1 : (rest c s).head? = some q) :
    isBoundary c.src (s.pos + quotedLen q (rest c s)) = true := by
  have hp : s.pos < c.src.length := (List.getElem?_eq_some_iff.1 (rest_get h1)).1
  have hle := untilByte_le q (List.drop 1 (rest c s))
  have hlen := rest_length c s
  simp only [List.length_drop] at hle
  unfold quotedLen
  simp only
  split
  · rename_i hlt
    have hg := untilByte_get (c := q) (s := List.drop 1 (rest c s)) (by rw [List.length_drop]; omega)
    rw [List.getElem?_drop, rest, List.getElem?_drop] at hg
    have h2 := h _ _ hg (by omega)
    have e : s.pos + (2 + untilByte q (List.drop 1 (rest c s))) =
      s.pos + (1 + untilByte q (List.drop 1 (List.drop s.pos c.src))) + 1 := by unfold rest; omega
    rw [e]; exact h2
  · have e : s.pos + (1 + untilByte q (List.drop 1 (rest c s))) = c.src.length := by omega
    rw [e]; exact isBoundary_length _

theorem asciiNext_of_utf8 {cps : List Nat} {src : Str} (h : Utf8 cps src) : AsciiNext src := by
  obtain ⟨hc, rfl⟩ := h
  exact fun i b => utf8_ascii_next hc

theorem StepTag.text_ok {c : Cfg} {s s' : Sc} (h : StepTag c s s') (hn : named s'.tokenType = true) :
    isBoundary c.src s.pos = true ∧ isBoundary (rest c s) (s'.pos - s.pos) = true := by
  cases h with
  | attrName hs hw hb h =>
    refine ⟨hb, ?_⟩
    have := firstRunLen_boundary h
    simp only [fin, adv, Nat.add_sub_cancel_left]; exact this
  | _ => simp [fin, named] at hn

/-- Names and values can be sliced out of the source. -/
theorem Step.text_ok {c : Cfg} {s s' : Sc} (h : Step c s s') (hc : AsciiNext c.src)
    (hn : named s'.tokenType = true) : tokenText c s' = .ok (bytesIn c.src s.pos s'.pos) := by
  have hpos : s.pos ≤ s'.pos ∧ s'.tokenOffset = s.pos := by
    refine ⟨?_, h.offset_eq⟩
    obtain ⟨_, h1 | ⟨h0, h1 | h1⟩⟩ := h.facts
    · rw [h1.2] at hn; simp [fin, named] at hn
    · have := h1.2; omega
    · have := h1.2.1; omega
  have key : isBoundary c.src s.pos = true ∧ isBoundary c.src s'.pos = true := by
    have tg : ∀ {a : Sc}, StepTag c a s' → a.pos = s.pos → s.pos < c.src.length →
        isBoundary c.src s.pos = true ∧ isBoundary c.src s'.pos = true := by
      intro a ha hap hp
      obtain ⟨h1, h2⟩ := ha.text_ok hn
      rw [rest, isBoundary_drop (by omega)] at h2
      rw [hap] at h1 h2
      have e : s.pos + (s'.pos - s.pos) = s'.pos := by omega
      rw [e] at h2
      exact ⟨h1, h2⟩
    cases h with
    | eos h => simp [fin, named] at hn
    | content _ h hs hx => cases hx <;> simp [fin, named] at hn
    | endTagName h hs hb h0 =>
      refine ⟨hb, ?_⟩
      have := firstRunLen_boundary h0
      rw [rest, isBoundary_drop (by omega)] at this
      exact this
    | endTag _ h hs hx => cases hx <;> simp [fin, named] at hn
    | startTagName h hs hb h0 =>
      refine ⟨hb, ?_⟩
      have := firstRunLen_boundary h0
      rw [rest, isBoundary_drop (by omega)] at this
      exact this
    | tag _ h hs hx => exact tg hx rfl h
    | afterNameTag _ h hs hw h0 hx => exact tg hx rfl h
    | valueUnquoted h hs hw hb h0 => exact ⟨hb, hc.unquoted h0⟩
    | valueQuoted h hs hw hb h0 q hq h1 => exact ⟨hb, hc.quoted hq h1⟩
    | valueTag _ h hs hw hb h0 h1 hx => exact tg hx rfl h
    | scriptContent _ h hs hl hx => cases hx <;> simp [fin, named] at hn
    | styleContent _ h hs hb h0 hx => cases hx <;> simp [fin, named] at hn
    | _ => simp [fin, named] at hn
  unfold tokenText
  rw [hpos.2, sliceStr_eq hpos.1 key.1 key.2]

end Html
