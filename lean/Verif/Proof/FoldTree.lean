import Verif.Spec.FoldTree
import Verif.Proof.Folding
import Verif.Proof.FoldElements
import Verif.Proof.Pseudo
import Verif.Proof.ParseEnd
import Verif.Proof.ParseConcat
import Verif.Proof.Query

/-! # Folding ranges are the closed elements of the tree -/

namespace Html
open Spec

variable {c : Cfg}

/-! ### The scanners with and without pseudo-closing tokens -/

theorem plain_eos {s s1 : Sc} (h : scan c s = .ok s1) (he : s1.tokenType = .EOS) : scan c.plain s = .ok s1 := by
  rcases scan_plain h with ⟨h1, _⟩ | ⟨_, h1, _⟩
  · exact h1
  · rw [he] at h1
    rcases h1 with h1 | h1 <;> cases h1

/-! ### States -/

/-- Where tag names stand. -/
structure NameFacts (s s' : Sc) : Prop where
  a1 : s'.state = .AfterOpeningStartTag → s'.tokenType = .StartTagOpen ∨ s.state = .AfterOpeningStartTag
  a2 : s'.tokenType = .StartTag → s.state = .AfterOpeningStartTag ∧ s'.state = .WithinTag
  a3 : s'.tokenType = .EndTag → s.state = .AfterOpeningEndTag ∧ s'.state = .WithinEndTag
  a4 : s'.tokenType = .StartTagOpen → s'.state = .AfterOpeningStartTag
  a5 : s'.tokenType = .EndTagOpen → s'.state = .AfterOpeningEndTag
  a6 : s'.state = .AfterOpeningEndTag → s'.tokenType = .EndTagOpen ∨ s.state = .AfterOpeningEndTag
  a7 : s'.state = .WithinEndTag → s.state = .WithinEndTag ∨ s.state = .AfterOpeningEndTag
  a8 : s'.tokenType = .StartTagOpen → s'.pos = s'.tokenOffset + 1
  a9 : s'.tokenType = .EndTagClose → s'.state = .WithinContent

theorem StepContent.nameFacts {s s' a : Sc} (h : StepContent c a s') (ha : a.state = .WithinContent) :
    NameFacts s s' := by
  cases h <;> constructor <;> simp [fin, adv, ha]

theorem StepTag.nameFacts {s s' a : Sc} (h : StepTag c a s') (ha : a.state = .WithinTag) : NameFacts s s' := by
  cases h with
  | close s1 hp1 h =>
    have := afterStartTag_content a
    constructor <;> (rcases this with h | h | h <;> simp [fin, adv, h])
  | unknown s1 hp1 =>
    have es : s1.state = .WithinTag := by cases hp1 <;> exact ha
    constructor <;> simp [fin, adv, es]
  | _ => constructor <;> simp [fin, adv, ha]

theorem Step.nameFacts {s s' : Sc} (h : Step c s s') (hne : s'.tokenType ≠ .EOS) : NameFacts s s' := by
  cases h with
  | eos h => exact absurd rfl hne
  | content _ h hs hx => exact hx.nameFacts hs
  | endTag _ h hs hx => cases hx <;> constructor <;> simp [fin, adv, hs]
  | tag _ h hs hx => exact hx.nameFacts hs
  | afterNameTag _ h hs hw h0 hx => exact hx.nameFacts rfl
  | valueTag _ h hs hw hb h0 h1 hx => exact hx.nameFacts rfl
  | script q st h hs hp hl hst =>
    rcases hst with ⟨e, _⟩ | ⟨e, _⟩ <;> constructor <;> simp [fin, e]
  | scriptContent _ h hs hl hx => exact hx.nameFacts rfl
  | styleContent _ h hs hb h0 hx => exact hx.nameFacts rfl
  | _ => rename_i hs _; constructor <;> simp_all [fin, adv]

/-! ### The two stacks -/

/-- The entry of the stack for an open element. -/
def EntryOf (d : TextDoc) (n : Node) (e : Nat × Str) : Prop :=
  n.tag = some e.2 ∧ e.1 = (d.posAt (n.start + 1)).line

/-- The stack of the service, and the open elements of the parser with the document. -/
inductive StackIs (d : TextDoc) : List Node → List (Nat × Str) → Prop
  | root (n : Node) : StackIs d [n] []
  | cons {n : Node} {l : List Node} {e : Nat × Str} {st : List (Nat × Str)} : EntryOf d n e → StackIs d l st →
      StackIs d (n :: l) (e :: st)

variable {d : TextDoc}

theorem StackIs.set {n n' : Node} {l : List Node} {st : List (Nat × Str)} (h : StackIs d (n :: l) st)
    (h1 : n'.tag = n.tag) (h2 : n'.start = n.start) : StackIs d (n' :: l) st := by
  cases h with
  | root => exact .root _
  | cons he hs => exact .cons ⟨by rw [h1]; exact he.1, by rw [h2]; exact he.2⟩ hs

theorem StackIs.ne {l : List Node} {st : List (Nat × Str)} (h : StackIs d l st) : l ≠ [] := by
  cases h <;> simp

theorem StackIs.inv {n : Node} {l : List Node} {e : Nat × Str} {st : List (Nat × Str)}
    (h : StackIs d (n :: l) (e :: st)) : EntryOf d n e ∧ StackIs d l st := by
  cases h with
  | cons he hs => exact ⟨he, hs⟩

theorem StackIs.pop {p p' : PState} {e : Nat × Str} {st : List (Nat × Str)}
    (h : StackIs d (p.cur :: p.parents) (e :: st)) (hp : p.pop = .ok p') : StackIs d (p'.cur :: p'.parents) st := by
  unfold PState.pop at hp
  split at hp
  · cases hp
  · rename_i q qs hq
    cases hp
    have hs := h.inv.2
    rw [hq] at hs
    exact hs.set rfl rfl

/-! ### Finished elements -/

/-- The elements that are finished. -/
def Finished (l : List Node) (n : Node) : Prop := ∃ q ∈ l, InForest q.children n

theorem inForest_snoc {l : List Node} {x n : Node} :
    InForest (l ++ [x]) n ↔ InForest l n ∨ n = x ∨ InForest x.children n := by
  constructor
  · intro h
    induction h with
    | root h =>
      rcases List.mem_append.1 h with h | h
      · exact .inl (.root h)
      · exact .inr (.inl (by simpa using h))
    | child hm hc ih =>
      rcases ih with ih | rfl | ih
      · exact .inl (.child ih hc)
      · exact .inr (.inr (.root hc))
      · exact .inr (.inr (.child ih hc))
  · rintro (h | rfl | h)
    · exact h.sub fun n hn => List.mem_append_left _ hn
    · exact .root (by simp)
    · exact Spec.InForest.under (m := x) (by simp) h

theorem Finished.set {n n' : Node} {l : List Node} (h : n'.children = n.children) (m : Node) :
    Finished (n' :: l) m ↔ Finished (n :: l) m := by
  unfold Finished
  simp [h]

theorem Finished.add {n q : Node} {l : List Node} (m : Node) :
    Finished (q.addChild n :: l) m ↔ Finished (n :: q :: l) m ∨ m = n := by
  unfold Finished
  simp only [List.mem_cons, exists_eq_or_imp, Node.addChild, inForest_snoc]
  constructor
  · rintro ((h | h | h) | h)
    · exact .inl (.inr (.inl h))
    · exact .inr h
    · exact .inl (.inl h)
    · exact .inl (.inr (.inr h))
  · rintro ((h | h | h) | h)
    · exact .inl (.inr (.inr h))
    · exact .inl (.inl h)
    · exact .inr h
    · exact .inl (.inr (.inl h))

theorem Finished.pop {p p' : PState} (hp : p.pop = .ok p') (m : Node) :
    Finished (p'.cur :: p'.parents) m ↔ Finished (p.cur :: p.parents) m ∨ m = p.cur := by
  unfold PState.pop at hp
  split at hp
  · cases hp
  · rename_i q qs hq
    cases hp
    rw [hq]
    exact Finished.add m

theorem Finished.push {n : Node} {l : List Node} (h : n.children = []) (m : Node) :
    Finished (n :: l) m ↔ Finished l m := by
  unfold Finished
  simp only [List.mem_cons, exists_eq_or_imp, h]
  constructor
  · rintro (h | h)
    · obtain ⟨d, hd, _⟩ := inForest_cases h
      cases hd
    · exact h
  · exact .inr

theorem popUnclosed_finished {k : Nat} {p p' : PState} (h : popUnclosed k p = .ok p') (m : Node)
    (hm : m.closed = true) : Finished (p'.cur :: p'.parents) m ↔ Finished (p.cur :: p.parents) m := by
  induction k generalizing p with
  | zero => cases h; exact Iff.rfl
  | succ k ih =>
    unfold popUnclosed at h
    obtain ⟨e, _, h⟩ := bind_ok h
    obtain ⟨p1, h1, h⟩ := bind_ok h
    rw [ih h, Finished.pop h1]
    constructor
    · rintro (h | h)
      · exact (Finished.set (by rfl) m).1 h
      · rw [h] at hm; cases hm
    · intro h; exact .inl ((Finished.set (by rfl) m).2 h)

theorem finishAll_finished {len : Nat} {n : Node} {ps : List Node} (m : Node) (hm : m.closed = true) :
    InForest (finishAll len n ps).children m ↔ Finished (n :: ps) m := by
  induction ps generalizing n with
  | nil => rw [finishAll]; unfold Finished; simp
  | cons q qs ih =>
    rw [finishAll, ih, Finished.add]
    constructor
    · rintro (h | h)
      · exact (Finished.set (by rfl) m).1 h
      · rw [h] at hm; cases hm
    · intro h; exact .inl ((Finished.set (by rfl) m).2 h)

/-! ### End tags -/

/-- The end tag closes the same element. -/
theorem end_sim {u : Uni} {cs : Bool} {raw : Str} {st : List (Nat × Str)} :
    ∀ {p p1 : PState}, StackIs d (p.cur :: p.parents) st →
    (∀ e ∈ st, SameName u cs (some e.2) (some raw) → e.2 = raw) →
    0 < matchDepth u cs (some (foldName u cs raw)) p.cur p.parents →
    popUnclosed (p.parents.length - matchDepth u cs (some (foldName u cs raw)) p.cur p.parents) p = .ok p1 →
    ∃ line st', popTo (fun name => some name == some raw) st = some (line, st') ∧
      StackIs d (p1.cur :: p1.parents) ((line, raw) :: st') := by
  induction st with
  | nil =>
    intro p p1 h _ h0 _
    generalize hps : p.parents = ps at *
    cases h with
    | root => simp [matchDepth] at h0
  | cons e st ih =>
    intro p p1 h hx h0 hp
    obtain ⟨line, name⟩ := e
    cases hps : p.parents with
    | nil =>
      rw [hps] at h
      cases h with
      | cons he hs => exact absurd rfl hs.ne
    | cons q qs =>
      have hs' := h
      rw [hps] at h h0 hp
      cases h with
      | cons he hs =>
        have hn : p.cur.isSameTag u (some (foldName u cs raw)) cs = true ↔ SameName u cs p.cur.tag (some raw) :=
          isSameTag_iff u cs p.cur (some raw)
        have htag : p.cur.tag = some name := he.1
        unfold matchDepth at h0 hp
        unfold popTo
        by_cases hsame : p.cur.isSameTag u (some (foldName u cs raw)) cs = true
        · rw [if_pos hsame] at hp
          rw [Nat.sub_self] at hp
          cases hp
          have hnm : name = raw := hx (line, name) (by simp) (by
            have := hn.1 hsame
            rw [htag] at this
            exact this)
          subst hnm
          exact ⟨line, st, by rw [if_pos (by simp)], hs'⟩
        · rw [if_neg hsame] at h0 hp
          have hne : name ≠ raw := by
            rintro rfl
            apply hsame
            rw [hn, htag]
            unfold SameName
            split <;> rfl
          rw [if_neg (by simpa using hne)]
          have hle := matchDepth_le u cs (some (foldName u cs raw)) q qs
          have hk : (q :: qs).length - matchDepth u cs (some (foldName u cs raw)) q qs =
              (qs.length - matchDepth u cs (some (foldName u cs raw)) q qs) + 1 := by
            simp only [List.length_cons]; omega
          rw [hk] at hp
          unfold popUnclosed at hp
          obtain ⟨e, _, hp⟩ := bind_ok hp
          obtain ⟨p2, h2, hp⟩ := bind_ok hp
          simp only [PState.pop, hps, Except.ok.injEq] at h2
          subst h2
          refine ih (p := ⟨q.addChild { p.cur with stop := e, closed := false }, qs, p.endTagStart, p.endTagName,
            p.pending⟩) (hs.set rfl rfl)
            (fun e he => hx e (List.mem_cons_of_mem _ he)) ?_ ?_
          · show 0 < matchDepth u cs (some (foldName u cs raw)) (q.addChild _) qs
            rw [matchDepth_addChild]
            exact h0
          · show popUnclosed (qs.length - matchDepth u cs (some (foldName u cs raw)) (q.addChild _) qs) _ = _
            rw [matchDepth_addChild]
            exact hp

/-- An end tag that closes nothing. -/
theorem stray_sim {u : Uni} {cs : Bool} {raw : Str} {st : List (Nat × Str)} :
    ∀ {n : Node} {ps : List Node}, StackIs d (n :: ps) st →
    matchDepth u cs (some (foldName u cs raw)) n ps = 0 →
    popTo (fun name => some name == some raw) st = none := by
  induction st with
  | nil => intro n ps _ _; rfl
  | cons e st ih =>
    intro n ps h h0
    obtain ⟨line, name⟩ := e
    cases h with
    | cons he hs =>
      cases ps with
      | nil => exact absurd rfl hs.ne
      | cons q qs =>
        unfold matchDepth at h0
        split at h0
        · simp at h0
        · rename_i hn
          unfold popTo
          rw [if_neg]
          · exact ih hs h0
          · intro hc
            have hc : name = raw := by simpa using hc
            subst hc
            apply hn
            have htag : n.tag = some name := he.1
            rw [show some (foldName u cs name) = (some name).map (foldName u cs) from rfl, isSameTag_iff, htag]
            unfold SameName
            split <;> rfl

/-! ### One step -/

theorem foldClose_some {void : List Str} {f : FoldState} {t : Tok} {a : Nat} {st : List (Nat × Str)}
    (hc : t.type ≠ .StartTagClose ∨ f.lastTag.any (void.contains ·) = true)
    (hp : popTo (fun name => some name == f.lastTag) f.stack = some ((d.posAt (a + 1)).line, st)) :
    (foldClose d void f t).stack = st ∧ (foldClose d void f t).lastTag = f.lastTag ∧
      ((foldClose d void f t).ranges, (foldClose d void f t).prevStart) =
        foldNext d (f.ranges, f.prevStart) (.element a t.stop) := by
  unfold foldClose foldNext
  rw [if_pos hc, hp]
  dsimp only
  split
  · exact ⟨rfl, rfl, rfl⟩
  · exact ⟨rfl, rfl, rfl⟩

theorem foldClose_none {void : List Str} {f : FoldState} {t : Tok}
    (hp : popTo (fun name => some name == f.lastTag) f.stack = none) : foldClose d void f t = f := by
  unfold foldClose
  rw [hp]
  split <;> rfl

theorem foldClose_open {void : List Str} {f : FoldState} {t : Tok} (hc : t.type = .StartTagClose)
    (hv : f.lastTag.any (void.contains ·) = false) : foldClose d void f t = f := by
  unfold foldClose
  rw [if_neg (fun h => h.elim (fun h => h hc) (fun h => by rw [hv] at h; cases h))]

/-- What relates the parser and the folding service. -/
structure FoldSim (u : Uni) (cs : Bool) (d : TextDoc) (S E : Str → Prop) (p : PState) (s : Sc) (f : FoldState)
    (es : List Foldable) (pre : List Tok) : Prop where
  opening : s.state = .AfterOpeningStartTag → StackIs d p.parents f.stack ∧ s.pos = p.cur.start + 1
  stack : s.state ≠ .AfterOpeningStartTag → StackIs d (p.cur :: p.parents) f.stack
  names : ∀ e ∈ f.stack, S e.2
  last : s.state.inStart = true → s.state ≠ .AfterOpeningStartTag → f.lastTag = p.cur.tag
  endName : s.state = .WithinEndTag →
    ∃ raw, f.lastTag = some raw ∧ E raw ∧ p.endTagName = some (foldName u cs raw)
  sorted : es.Pairwise (fun a b => a.stop < b.stop)
  le : ∀ e ∈ es, e.stop ≤ s.pos
  mem : ∀ e, e ∈ es ↔
    (∃ n, Finished (p.cur :: p.parents) n ∧ n.closed = true ∧ e = .element n.start n.stop) ∨
    (∃ t ∈ pre, t.type = .Comment ∧ e = .comment t.offset t.stop)
  ranges : (f.ranges, f.prevStart) = es.foldl (foldNext d) ([], none)

theorem sorted_snoc {es : List Foldable} {e : Foldable} {n : Nat} (h : es.Pairwise (fun a b => a.stop < b.stop))
    (h1 : ∀ e ∈ es, e.stop ≤ n) (h2 : n < e.stop) : (es ++ [e]).Pairwise (fun a b => a.stop < b.stop) := by
  rw [List.pairwise_append]
  refine ⟨h, by simp, fun a ha b hb => ?_⟩
  rw [List.mem_singleton] at hb
  subst hb
  have := h1 a ha
  omega

variable {u : Uni} {cs : Bool} {void : List Str} {S E : Str → Prop}

/-- An element is closed. -/
theorem FoldSim.close {p p1 p' : PState} {s s' : Sc} {f f' : FoldState} {es : List Foldable} {pre : List Tok} {n : Node}
    (h : FoldSim u cs d S E p s f es pre) (hlt : s.pos < s'.pos) (hty : s'.tokenType ≠ .Comment)
    (hin : s'.state.inStart = false) (hend : s'.state ≠ .WithinEndTag)
    (hfin : ∀ m, m.closed = true → (Finished (n :: p1.parents) m ↔ Finished (p.cur :: p.parents) m))
    (hpop : ({ p1 with cur := n } : PState).pop = .ok p') (hcl : n.closed = true) (hstop : n.stop = s'.pos)
    (hst : StackIs d (p'.cur :: p'.parents) f'.stack) (hsub : ∀ e ∈ f'.stack, e ∈ f.stack)
    (hr : (f'.ranges, f'.prevStart) = foldNext d (f.ranges, f.prevStart) (.element n.start s'.pos)) :
    FoldSim u cs d S E p' s' f' (es ++ [.element n.start n.stop]) (pre ++ [s'.tok]) := by
  have hop : s'.state ≠ .AfterOpeningStartTag := by
    intro h0; rw [h0] at hin; cases hin
  refine ⟨fun h0 => absurd h0 hop, fun _ => hst, fun e he => h.names e (hsub e he), fun h0 => ?_,
    fun h0 => absurd h0 hend, sorted_snoc h.sorted h.le (by rw [Foldable.stop, hstop]; exact hlt), ?_, ?_, ?_⟩
  · rw [hin] at h0; cases h0
  · intro e he
    rcases List.mem_append.1 he with he | he
    · have := h.le e he; omega
    · rw [List.mem_singleton] at he
      subst he
      rw [Foldable.stop, hstop]
      exact Nat.le_refl _
  · intro e
    have hcm : (∃ t ∈ pre ++ [s'.tok], t.type = .Comment ∧ e = .comment t.offset t.stop) ↔
        (∃ t ∈ pre, t.type = .Comment ∧ e = .comment t.offset t.stop) := by
      constructor
      · rintro ⟨t, ht, h1, h2⟩
        rcases List.mem_append.1 ht with ht | ht
        · exact ⟨t, ht, h1, h2⟩
        · rw [List.mem_singleton] at ht
          subst ht
          exact absurd h1 hty
      · rintro ⟨t, ht, h1⟩
        exact ⟨t, List.mem_append_left _ ht, h1⟩
    rw [hcm, List.mem_append, List.mem_singleton, h.mem e]
    constructor
    · rintro ((⟨m, h1, h2, h3⟩ | h1) | h1)
      · exact .inl ⟨m, (Finished.pop hpop m).2 (.inl ((hfin m h2).2 h1)), h2, h3⟩
      · exact .inr h1
      · exact .inl ⟨n, (Finished.pop hpop n).2 (.inr rfl), hcl, h1⟩
    · rintro (⟨m, h1, h2, h3⟩ | h1)
      · rcases (Finished.pop hpop m).1 h1 with h1 | h1
        · exact .inl (.inl ⟨m, (hfin m h2).1 h1, h2, h3⟩)
        · subst h1; exact .inr h3
      · exact .inl (.inr h1)
  · rw [List.foldl_append, ← h.ranges, hr, List.foldl_cons, List.foldl_nil, hstop]

/-- Nothing is finished. -/
theorem FoldSim.mem_same {p p' : PState} {s : Sc} {f : FoldState} {es : List Foldable} {pre : List Tok}
    (h : FoldSim u cs d S E p s f es pre) {t : Tok} (ht : t.type ≠ .Comment)
    (hfin : ∀ m, m.closed = true → (Finished (p'.cur :: p'.parents) m ↔ Finished (p.cur :: p.parents) m)) (e : Foldable) :
    e ∈ es ↔ (∃ n, Finished (p'.cur :: p'.parents) n ∧ n.closed = true ∧ e = .element n.start n.stop) ∨
      (∃ t' ∈ pre ++ [t], t'.type = .Comment ∧ e = .comment t'.offset t'.stop) := by
  rw [h.mem e]
  constructor
  · rintro (⟨m, h1, h2, h3⟩ | ⟨t', h1, h2⟩)
    · exact .inl ⟨m, (hfin m h2).2 h1, h2, h3⟩
    · exact .inr ⟨t', List.mem_append_left _ h1, h2⟩
  · rintro (⟨m, h1, h2, h3⟩ | ⟨t', h1, h2, h3⟩)
    · exact .inl ⟨m, (hfin m h2).1 h1, h2, h3⟩
    · rcases List.mem_append.1 h1 with h1 | h1
      · exact .inr ⟨t', h1, h2, h3⟩
      · rw [List.mem_singleton] at h1; subst h1; exact absurd h2 ht

/-- What the step lemma needs to know about the token. -/
structure FoldTok (u : Uni) (S E : Str → Prop) (src : Str) (s s' : Sc) : Prop where
  lt : s.pos < s'.pos
  start : s.state = .AfterOpeningStartTag → s'.tokenType = .StartTag
  stop : s.state = .AfterOpeningEndTag → s'.tokenType = .EndTag
  isStart : s'.tokenType = .StartTag → S (text src s'.tok)
  isEnd : s'.tokenType = .EndTag → E (text src s'.tok)
  region : s'.tokenType = .Comment → isRegionStart u (text src s'.tok) = false ∧ isRegionEnd u (text src s'.tok) = false

theorem FoldSim.step {p p' : PState} {s s' : Sc} {f f' : FoldState} {es : List Foldable} {pre : List Tok}
    (hi : FoldSim c.uni c.caseSensitive d S E p s f es pre) (hd : d.text = c.src) (hp : PInv c void p s)
    (hst : Step c s s') (hne : s'.tokenType ≠ .EOS) (hSE : ∀ a b, S a → E b →
      SameName c.uni c.caseSensitive (some a) (some b) → a = b)
    (ht : FoldTok c.uni S E c.src s s') (h : parseStep c void p s' = .ok p')
    (hf : foldStep c.uni d void f s'.tok = .ok f') :
    ∃ es', FoldSim c.uni c.caseSensitive d S E p' s' f' es' (pre ++ [s'.tok]) := by
  have hl := hst.locFacts hne
  have hn := hst.nameFacts hne
  have hoff := hst.offset_eq
  have hty : s'.tok.type = s'.tokenType := rfl
  have hlen : 0 < s'.tokenLength := by
    have : s'.tokenLength = s'.pos - s'.tokenOffset := rfl
    have := ht.lt
    omega
  have hle : ∀ e ∈ es, e.stop ≤ s'.pos := fun e he => by have := hi.le e he; have := ht.lt; omega
  have hslice : ∀ x, sliceStr d.text s'.tok.offset s'.tok.stop = .ok x → x = text c.src s'.tok := by
    intro x hx; rw [hd] at hx; exact (sliceStr_ok hx).2.2.2.2
  have hop : s'.tokenType ≠ .StartTag → s.state ≠ .AfterOpeningStartTag := fun h0 h1 => h0 (ht.start h1)
  have hop' : s'.tokenType ≠ .StartTagOpen → s'.tokenType ≠ .StartTag → s'.state ≠ .AfterOpeningStartTag := by
    intro h0 h1 h2
    rcases hn.a1 h2 with h3 | h3
    · exact h0 h3
    · exact hop h1 h3
  have hwe : s'.tokenType ≠ .EndTag → s'.state = .WithinEndTag → s.state = .WithinEndTag := by
    intro h0 h1
    rcases hn.a7 h1 with h2 | h2
    · exact h2
    · exact absurd (ht.stop h2) h0
  -- tokens without effect on the structure
  have same : s'.tokenType ≠ .StartTagOpen → s'.tokenType ≠ .StartTag → s'.tokenType ≠ .EndTag →
      s'.tokenType ≠ .Comment → p'.cur.tag = p.cur.tag → p'.cur.start = p.cur.start →
      p'.cur.children = p.cur.children → p'.parents = p.parents →
      (s'.tokenType ≠ .EndTagOpen → p'.endTagName = p.endTagName) → f' = f →
      ∃ es', FoldSim c.uni c.caseSensitive d S E p' s' f' es' (pre ++ [s'.tok]) := by
    intro h1 h2 h3 h4 h5 h6 h7 h8 h9 h10
    subst h10
    refine ⟨es, fun h0 => absurd h0 (hop' h1 h2), fun _ => ?_, hi.names, fun h0 _ => ?_, fun h0 => ?_, hi.sorted, hle,
      hi.mem_same h4 ?_, hi.ranges⟩
    · rw [h8]; exact (hi.stack (hop h2)).set h5 h6
    · rw [h5]
      refine hi.last ?_ (hop h2)
      rcases hl.g1 h0 with h | h
      · exact h
      · exact absurd h h1
    · rw [h9]
      · exact hi.endName (hwe h3 h0)
      · intro h11
        have := hn.a5 h11
        rw [h0] at this
        cases this
    · intro m _; rw [h8]; exact Finished.set h7 m
  unfold parseStep at h
  unfold foldStep at hf
  rw [hty] at hf
  split at h
  · -- `<`
    rename_i ht1
    cases h
    simp only [ht1] at hf
    cases hf
    have hs0 : s.state ≠ .AfterOpeningStartTag := hop (by rw [ht1]; decide)
    refine ⟨es, fun _ => ⟨hi.stack hs0, hn.a8 ht1⟩, fun h0 => absurd (hn.a4 ht1) h0, hi.names, fun _ h0 => absurd (hn.a4 ht1) h0,
      fun h0 => ?_, hi.sorted, hle, hi.mem_same (by rw [hty, ht1]; decide) fun m _ => Finished.push rfl m, hi.ranges⟩
    rw [hn.a4 ht1] at h0; cases h0
  · -- name of a start tag
    rename_i ht1
    obtain ⟨t, h1, h⟩ := bind_ok h
    cases h
    simp only [ht1] at hf
    obtain ⟨x, hx, hf⟩ := bind_ok hf
    cases hf
    obtain ⟨hs, hs'⟩ := hn.a2 ht1
    have hxt : x = t := by rw [hslice x hx, text_eq h1]
    subst hxt
    have hat : s'.tok.offset = p.cur.start + 1 := by
      rw [← (hi.opening hs).2]; exact hoff
    refine ⟨es, fun h0 => ?_, fun _ => .cons ⟨rfl, by rw [hat]⟩ (hi.opening hs).1, ?_, fun _ _ => rfl, fun h0 => ?_,
      hi.sorted, hle, hi.mem_same (by rw [hty, ht1]; decide) fun m _ => Finished.set (by rfl) m, hi.ranges⟩
    · rw [hs'] at h0; cases h0
    · intro e he
      rcases List.mem_cons.1 he with rfl | he
      · rw [hslice _ hx]; exact ht.isStart ht1
      · exact hi.names e he
    · rw [hs'] at h0; cases h0
  · -- `>` of a start tag
    rename_i ht1
    simp only [ht1] at hf
    cases hf
    obtain ⟨hs1, hs2⟩ := hl.g3 (.inl ht1)
    have hs0 : s.state ≠ .AfterOpeningStartTag := hop (by rw [ht1]; decide)
    have hpar := (hp.inStart hs1).2
    rw [if_neg (by simpa using hpar)] at h
    simp only [hlen, gt_iff_lt, if_true] at h
    have hlast := hi.last hs1 hs0
    have hstk := hi.stack hs0
    split at h
    · rename_i hv
      cases hfs : f.stack with
      | nil =>
        rw [hfs] at hstk
        generalize p.parents = ps at hstk hpar
        cases hstk; exact absurd rfl hpar
      | cons e st =>
        rw [hfs] at hstk
        obtain ⟨he, hstk'⟩ := hstk.inv
        have hv' : f.lastTag.any (void.contains ·) = true := by rw [hlast]; exact hv
        have hpt : popTo (fun name => some name == f.lastTag) f.stack = some ((d.posAt (p.cur.start + 1)).line, st) := by
          rw [hfs]
          obtain ⟨l, nm⟩ := e
          unfold popTo
          rw [if_pos (by rw [hlast, he.1]; simp)]
          rw [← he.2]
        obtain ⟨k1, k2, k3⟩ := foldClose_some (t := s'.tok) (.inr hv') hpt
        refine ⟨_, hi.close (p1 := p) ht.lt (by rw [ht1]; decide) hs2 ?_ (fun m _ => Finished.set (by rfl) m) h rfl rfl ?_ ?_ k3⟩
        · intro h0
          have := hwe (by rw [ht1]; decide) h0
          rw [this] at hs1; cases hs1
        · rw [k1]
          refine StackIs.pop (e := e) ?_ h
          exact hstk.set rfl rfl
        · rw [k1]; intro e' he'; rw [hfs]; exact List.mem_cons_of_mem _ he'
    · rename_i hv
      cases h
      exact same (by rw [ht1]; decide) (by rw [ht1]; decide) (by rw [ht1]; decide) (by rw [ht1]; decide) rfl rfl rfl rfl
        (fun _ => rfl) (foldClose_open ht1 (by rw [hlast]; simpa using hv))
  · -- `/>`
    rename_i ht1
    simp only [ht1] at hf
    cases hf
    obtain ⟨hs1, hs2⟩ := hl.g3 (.inr ht1)
    have hs0 : s.state ≠ .AfterOpeningStartTag := hop (by rw [ht1]; decide)
    have hpar := (hp.inStart hs1).2
    rw [if_neg (by simpa using hpar)] at h
    have hlast := hi.last hs1 hs0
    have hstk := hi.stack hs0
    cases hfs : f.stack with
    | nil =>
      rw [hfs] at hstk
      generalize p.parents = ps at hstk hpar
      cases hstk; exact absurd rfl hpar
    | cons e st =>
      rw [hfs] at hstk
      obtain ⟨he, hstk'⟩ := hstk.inv
      have hpt : popTo (fun name => some name == f.lastTag) f.stack = some ((d.posAt (p.cur.start + 1)).line, st) := by
        rw [hfs]
        obtain ⟨l, nm⟩ := e
        unfold popTo
        rw [if_pos (by rw [hlast, he.1]; simp)]
        rw [← he.2]
      obtain ⟨k1, k2, k3⟩ := foldClose_some (void := void) (t := s'.tok) (.inl (by rw [hty, ht1]; decide)) hpt
      refine ⟨_, hi.close (p1 := p) ht.lt (by rw [ht1]; decide) hs2 ?_ (fun m _ => Finished.set (by rfl) m) h rfl rfl ?_ ?_ k3⟩
      · intro h0
        have := hwe (by rw [ht1]; decide) h0
        rw [this] at hs1; cases hs1
      · rw [k1]
        refine StackIs.pop (e := e) ?_ h
        exact hstk.set rfl rfl
      · rw [k1]; intro e' he'; rw [hfs]; exact List.mem_cons_of_mem _ he'
  · -- `</`
    rename_i ht1
    simp only [ht1] at hf
    cases hf
    cases h
    exact same (by rw [ht1]; decide) (by rw [ht1]; decide) (by rw [ht1]; decide) (by rw [ht1]; decide) rfl rfl rfl rfl
      (fun h0 => absurd ht1 h0) rfl
  · -- name of an end tag
    rename_i ht1
    obtain ⟨t, h1, h⟩ := bind_ok h
    cases h
    simp only [ht1] at hf
    obtain ⟨x, hx, hf⟩ := bind_ok hf
    cases hf
    obtain ⟨hs, hs'⟩ := hn.a3 ht1
    have hxt : x = t := by rw [hslice x hx, text_eq h1]
    subst hxt
    refine ⟨es, fun h0 => ?_, fun _ => hi.stack (by rw [hs]; decide), hi.names, fun h0 => ?_, fun h0 => ?_,
      hi.sorted, hle, hi.mem_same (by rw [hty, ht1]; decide) fun m _ => Iff.rfl, hi.ranges⟩
    · rw [hs'] at h0; cases h0
    · rw [hs'] at h0; cases h0
    · exact ⟨x, rfl, by rw [hslice _ hx]; exact ht.isEnd ht1, rfl⟩
  · -- `>` of an end tag
    rename_i ht1
    simp only [ht1] at hf
    cases hf
    have hs : s.state = .WithinEndTag := by
      rcases hst.endClose ht1 with h0 | h0
      · have := ht.stop h0; rw [ht1] at this; cases this
      · exact h0
    obtain ⟨raw, e1, e2, e3⟩ := hi.endName hs
    have hs0 : s.state ≠ .AfterOpeningStartTag := by rw [hs]; decide
    have hstk := hi.stack hs0
    have hin : s'.state.inStart = false := by
      cases hc : s'.state.inStart with
      | false => rfl
      | true =>
        rcases hl.g1 hc with h0 | h0
        · rw [hs] at h0; cases h0
        · rw [ht1] at h0; cases h0
    simp only [e3] at h
    split at h
    · rename_i hd0
      obtain ⟨p1, hp1, h⟩ := bind_ok h
      obtain ⟨line, st, k1, k2⟩ := end_sim hstk (fun e he => hSE _ _ (hi.names e he) e2) hd0 hp1
      have hpt : popTo (fun name => some name == f.lastTag) f.stack = some ((d.posAt (p1.cur.start + 1)).line, st) := by
        rw [e1, k1, show line = _ from k2.inv.1.2]
      obtain ⟨m1, m2, m3⟩ := foldClose_some (void := void) (t := s'.tok) (.inl (by rw [hty, ht1]; decide)) hpt
      refine ⟨_, hi.close (p1 := p1) ht.lt (by rw [ht1]; decide) hin ?_ (fun m hm => ?_) h rfl rfl ?_ ?_ m3⟩
      · rw [hn.a9 ht1]; decide
      · exact (Finished.set (by rfl) m).trans (popUnclosed_finished hp1 m hm)
      · rw [m1]
        refine StackIs.pop (e := (line, raw)) ?_ h
        exact k2.set rfl rfl
      · rw [m1]
        obtain ⟨_, _, _, hmem⟩ := popTo_some k1
        exact hmem
    · rename_i hd0
      cases h
      exact same (by rw [ht1]; decide) (by rw [ht1]; decide) (by rw [ht1]; decide) (by rw [ht1]; decide) rfl rfl rfl rfl
        (fun _ => rfl) (foldClose_none (by rw [e1]; exact stray_sim hstk (Nat.le_zero.1 (Nat.not_lt.1 hd0))))
  · rename_i ht1
    obtain ⟨t, h1, h⟩ := bind_ok h
    cases h
    simp only [ht1] at hf
    cases hf
    exact same (by rw [ht1]; decide) (by rw [ht1]; decide) (by rw [ht1]; decide) (by rw [ht1]; decide) rfl rfl rfl rfl
      (fun _ => rfl) rfl
  · rename_i ht1
    simp only [ht1] at hf
    cases hf
    have key : p'.cur.tag = p.cur.tag ∧ p'.cur.start = p.cur.start ∧ p'.cur.children = p.cur.children ∧
        p'.parents = p.parents ∧ p'.endTagName = p.endTagName := by
      split at h
      · obtain ⟨m, hm, h⟩ := bind_ok h
        cases h
        exact ⟨rfl, rfl, rfl, rfl, rfl⟩
      · cases h; exact ⟨rfl, rfl, rfl, rfl, rfl⟩
    exact same (by rw [ht1]; decide) (by rw [ht1]; decide) (by rw [ht1]; decide) (by rw [ht1]; decide) key.1 key.2.1
      key.2.2.1 key.2.2.2.1 (fun _ => key.2.2.2.2) rfl
  · rename_i ht1
    simp only [ht1] at hf
    cases hf
    have key : p'.cur.tag = p.cur.tag ∧ p'.cur.start = p.cur.start ∧ p'.cur.children = p.cur.children ∧
        p'.parents = p.parents ∧ p'.endTagName = p.endTagName := by
      obtain ⟨t, h1, h⟩ := bind_ok h
      split at h
      · obtain ⟨m, hm, h⟩ := bind_ok h
        cases h
        exact ⟨rfl, rfl, rfl, rfl, rfl⟩
      · cases h; exact ⟨rfl, rfl, rfl, rfl, rfl⟩
    exact same (by rw [ht1]; decide) (by rw [ht1]; decide) (by rw [ht1]; decide) (by rw [ht1]; decide) key.1 key.2.1
      key.2.2.1 key.2.2.2.1 (fun _ => key.2.2.2.2) rfl
  · rename_i h1 h2 h3 h4 h5 h6 h7 h8 h9 h10
    cases h
    by_cases hcm : s'.tokenType = .Comment
    · simp only [hcm] at hf
      obtain ⟨x, hx, hf⟩ := bind_ok hf
      cases hf
      have hr := ht.region hcm
      rw [← hslice x hx] at hr
      have hs0 := hop h2
      have hk : (foldComment c.uni d f s'.tok x).stack = f.stack ∧
          (foldComment c.uni d f s'.tok x).lastTag = f.lastTag ∧
          ((foldComment c.uni d f s'.tok x).ranges, (foldComment c.uni d f s'.tok x).prevStart) =
            foldNext d (f.ranges, f.prevStart) (.comment s'.tok.offset s'.tok.stop) := by
        unfold foldComment foldNext
        rw [hr.1, hr.2]
        dsimp only
        simp only [Bool.false_eq_true, if_false]
        split
        · exact ⟨rfl, rfl, rfl⟩
        · exact ⟨rfl, rfl, rfl⟩
      obtain ⟨k1, k2, k3⟩ := hk
      refine ⟨es ++ [.comment s'.tok.offset s'.tok.stop], fun h0 => absurd h0 (hop' h1 h2), fun _ => ?_, ?_, fun h0 _ => ?_,
        fun h0 => ?_, sorted_snoc (n := s.pos) (e := .comment s'.tok.offset s'.tok.stop) hi.sorted hi.le ht.lt, ?_, ?_, ?_⟩
      · rw [k1]; exact hi.stack hs0
      · rw [k1]; exact hi.names
      · rw [k2]
        refine hi.last ?_ hs0
        rcases hl.g1 h0 with h | h
        · exact h
        · exact absurd h h1
      · rw [k2]; exact hi.endName (hwe h6 h0)
      · intro e he
        rcases List.mem_append.1 he with he | he
        · exact hle e he
        · rw [List.mem_singleton] at he; subst he; exact Nat.le_refl _
      · intro e
        rw [List.mem_append, List.mem_singleton, hi.mem e]
        constructor
        · rintro ((h | ⟨t, h⟩) | h)
          · exact .inl h
          · exact .inr ⟨t, List.mem_append_left _ h.1, h.2⟩
          · exact .inr ⟨_, by simp, hcm, h⟩
        · rintro (h | ⟨t, h, h'⟩)
          · exact .inl (.inl h)
          · rcases List.mem_append.1 h with h | h
            · exact .inl (.inr ⟨t, h, h'⟩)
            · rw [List.mem_singleton] at h; subst h; exact .inr h'.2
      · rw [List.foldl_append, ← hi.ranges, k3]; rfl
    · refine same h1 h2 h6 hcm rfl rfl rfl rfl (fun _ => rfl) ?_
      split at hf <;> first
        | (cases hf; rfl)
        | exact absurd (by assumption) h2
        | exact absurd (by assumption) h6
        | exact absurd (by assumption) h3
        | exact absurd (by assumption) h4
        | exact absurd (by assumption) h7
        | exact absurd (by assumption) hcm

/-! ### The loop -/

/-- The tokens in front of a tag name. -/
def NameFirst (s : Sc) (ts : List Tok) : Prop :=
  (s.state = .AfterOpeningStartTag → ∃ n post, ts = n :: post ∧ n.type = .StartTag) ∧
  (s.state = .AfterOpeningEndTag → ∃ n post, ts = n :: post ∧ n.type = .EndTag)

theorem FoldSim.loop {fuel : Nat} {p p' : PState} {s : Sc} {f f' : FoldState} {es : List Foldable}
    {pre ts : List Tok} (hi : FoldSim c.uni c.caseSensitive d S E p s f es pre) (hd : d.text = c.src)
    (hp : PInv c void p s)
    (hSE : ∀ a b, S a → E b → SameName c.uni c.caseSensitive (some a) (some b) → a = b)
    (hlt : ∀ t ∈ ts, t.offset < t.stop) (htn : TagsNamed ts) (hnf : NameFirst s ts)
    (hS : ∀ t ∈ ts, t.type = .StartTag → S (text c.src t)) (hE : ∀ t ∈ ts, t.type = .EndTag → E (text c.src t))
    (hreg : ∀ t ∈ ts, t.type = .Comment →
      isRegionStart c.uni (text c.src t) = false ∧ isRegionEnd c.uni (text c.src t) = false)
    (h : parseLoop c void fuel p s = .ok p') (ht : tokensF c fuel s = .ok ts)
    (hf : ts.foldlM (foldStep c.uni d void) f = .ok f') :
    ∃ s' es', FoldSim c.uni c.caseSensitive d S E p' s' f' es' (pre ++ ts) := by
  induction fuel generalizing p s f es pre ts with
  | zero => cases h
  | succ n ih =>
    unfold parseLoop at h
    unfold tokensF at ht
    obtain ⟨s1, h1, h⟩ := bind_ok h
    rw [h1] at ht
    simp only [bind, Except.bind] at ht
    have hst := scan_step h1
    split at h
    · rename_i he
      rw [if_pos he] at ht
      cases ht; cases h; cases hf
      exact ⟨s, es, by rw [List.append_nil]; exact hi⟩
    · rename_i hne
      rw [if_neg hne] at ht
      obtain ⟨p1, h2, h⟩ := bind_ok h
      obtain ⟨ts', h3, ht⟩ := bind_ok ht
      cases ht
      obtain ⟨p2, h4, h5⟩ := hp.step hst hne (fun hn => by
        obtain ⟨t, ht⟩ := parseStep_text h2 hn
        exact tokenText_eq ht hst.offset_eq)
      rw [h2] at h4
      cases h4
      obtain ⟨f1, hf1, hf⟩ := foldlM_cons_ok hf
      have hoff := hst.offset_eq
      have hpos := hlt s1.tok (by simp)
      have hnm := hst.nameFacts hne
      have hft : FoldTok c.uni S E c.src s s1 := by
        refine ⟨?_, fun h0 => ?_, fun h0 => ?_, hS s1.tok (by simp), hE s1.tok (by simp), hreg s1.tok (by simp)⟩
        · have e1 : s1.tok.stop = s1.pos := rfl
          have e2 : s1.tok.offset = s1.tokenOffset := rfl
          omega
        · obtain ⟨n, post, e, e'⟩ := hnf.1 h0
          cases e; exact e'
        · obtain ⟨n, post, e, e'⟩ := hnf.2 h0
          cases e; exact e'
      obtain ⟨es1, hs1⟩ := hi.step hd hp hst hne hSE hft h2 hf1
      have htn' : TagsNamed ts' := fun pre t post e => htn (s1.tok :: pre) t post (by rw [e]; rfl)
      have hnf' : NameFirst s1 ts' := by
        have h0 := htn [] s1.tok ts' rfl
        refine ⟨fun h6 => ?_, fun h6 => ?_⟩
        · rcases hnm.a1 h6 with h7 | h7
          · exact h0.1 h7
          · have := (hnm.a2 (hft.start h7)).2
            rw [h6] at this; cases this
        · rcases hnm.a6 h6 with h7 | h7
          · exact h0.2 h7
          · have := (hnm.a3 (hft.stop h7)).2
            rw [h6] at this; cases this
      obtain ⟨s', es', hr⟩ := ih hs1 h5 (fun t ht => hlt t (List.mem_cons_of_mem _ ht)) htn' hnf'
        (fun t ht => hS t (List.mem_cons_of_mem _ ht)) (fun t ht => hE t (List.mem_cons_of_mem _ ht))
        (fun t ht => hreg t (List.mem_cons_of_mem _ ht)) h h3 hf
      exact ⟨s', es', by rw [List.append_assoc] at hr; exact hr⟩

theorem tokensF_plain {fuel : Nat} {ts : List Tok} {s : Sc} (h : tokensF c fuel s = .ok ts)
    (hl : ∀ t ∈ ts, t.offset < t.stop) : tokensF c.plain fuel s = .ok ts := by
  induction fuel generalizing s ts with
  | zero => cases h
  | succ n ih =>
    unfold tokensF at h
    unfold tokensF
    obtain ⟨s1, h1, h⟩ := bind_ok h
    split at h
    · rename_i he
      cases h
      rw [plain_eos h1 he]
      simp only [bind, Except.bind]
      rw [if_pos he]
      rfl
    · rename_i hne
      obtain ⟨ts', h2, h⟩ := bind_ok h
      cases h
      have h3 : scan c.plain s = .ok s1 := by
        rcases scan_plain h1 with ⟨h5, _⟩ | ⟨h5, _⟩
        · exact h5
        · exfalso
          have h6 := (scan_step h1).offset_eq
          have h7 := hl s1.tok (by simp)
          have h8 : s1.tok.stop = s1.pos := rfl
          have h9 : s1.tok.offset = s1.tokenOffset := rfl
          omega
      rw [h3]
      simp only [bind, Except.bind]
      rw [if_neg hne, ih h2 fun t ht => hl t (List.mem_cons_of_mem _ ht)]
      rfl

/-- With pseudo-closing tokens, if there are none, and without: the tokens are the same. -/
theorem tokens_plain {ts : List Tok} {s : Sc} (h : tokens c s = .ok ts) (hl : ∀ t ∈ ts, t.offset < t.stop) :
    tokens c.plain s = .ok ts := tokensF_plain h hl

end Html
