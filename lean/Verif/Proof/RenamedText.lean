import Verif.Proof.Renamed
import Verif.Proof.CompletionClose
import Verif.Proof.Rename

/-! # Renaming an element: the texts -/

namespace Html
open Spec

variable {P : Nat} {N : Str} {μ : Nat → Nat} {G : Prop} {F : Str → Prop} {c : Cfg} {void : List Str}

/-! ### What is in front of the tag -/

theorem moveA_old {src : Str} {lo hi : Nat} {x : List (Str × Attr)} (h : ∀ a ∈ x, AttrAt src lo hi a.1 a.2)
    (hμ : ∀ o, o ≤ P → μ o = o) (hh : hi ≤ P) : moveA μ x = x := by
  unfold moveA
  conv => rhs; rw [← List.map_id x]
  refine List.map_congr_left fun a ha => ?_
  have h1 := h a ha
  have h2 : a.2.offset ≤ P := by
    unfold AttrAt at h1
    obtain ⟨_, _, h1⟩ := h1
    split at h1
    · omega
    · obtain ⟨w, _, _, h1, _⟩ := h1; omega
  obtain ⟨a1, a2, a3⟩ := a
  simp only at h2
  simp only [hμ _ h2, id]

mutual
theorem renamed_old (hμ : ∀ o, o ≤ P → μ o = o) : ∀ n : Node, Deep (Done c void) n → n.stop ≤ P → renamed P N μ n = n
  | ⟨tag, start, stop, children, closed, ste, ets, attrs⟩, h, hp => by
    obtain ⟨hd, hc⟩ := h
    have hlt := hd.lt
    simp only at hlt hp hc
    have h1 : ste.map μ = ste := by
      cases hs : ste with
      | none => rfl
      | some e =>
        obtain ⟨_, _, h1, h2⟩ := hd.ste e hs
        have := h1.le
        simp only at h2
        simp only [Option.map_some]
        rw [hμ _ (by omega)]
    have h3 : ste.getD stop ≤ stop := by
      cases hs : ste with
      | none => exact Nat.le_refl _
      | some e =>
        obtain ⟨_, _, h1, h2⟩ := hd.ste e hs
        have := h1.le
        simp only at h2
        simp only [Option.getD_some]; omega
    have h2 : ets.map μ = ets := by
      cases hs : ets with
      | none => rfl
      | some e =>
        cases hste : ste with
        | none => have := (hd.noste hste).2.1; simp only at this; rw [hs] at this; cases this
        | some e0 =>
          obtain ⟨_, _, h1, h2⟩ := hd.ste e0 hste
          simp only [contentEnd, hs, Option.getD_some] at h2
          simp only [Option.map_some]
          rw [hμ _ (by omega)]
    have h4 : ∀ d ∈ children, d.stop ≤ P := by
      intro d hdm
      cases hste : ste with
      | none => have := (hd.noste hste).1; simp only at this; rw [this] at hdm; cases hdm
      | some e0 =>
        obtain ⟨_, _, h1, h2⟩ := hd.ste e0 hste
        have := (siblings_stop h1 d hdm).2
        simp only at h2
        omega
    rw [renamed, renamedAll_old hμ children hc h4, h1, h2, if_neg (by omega)]
    have h5 := moveA_old (P := P) hd.attrs hμ (show (ste.getD stop) ≤ P by omega)
    unfold moveA at h5
    simp only at h5
    rw [h5, hμ _ hp, hμ _ (show start ≤ P by omega)]
theorem renamedAll_old (hμ : ∀ o, o ≤ P → μ o = o) : ∀ x : List Node, (∀ d ∈ x, Deep (Done c void) d) →
    (∀ d ∈ x, d.stop ≤ P) → renamedAll P N μ x = x
  | [], _, _ => rfl
  | n :: x, h1, h2 => by
    rw [renamedAll, renamed_old hμ n (h1 n (by simp)) (h2 n (by simp)),
      renamedAll_old hμ x (fun d hd => h1 d (by simp [hd])) (fun d hd => h2 d (by simp [hd]))]
end

theorem Kids.renamed {lo hi : Nat} {x : List Node} (h : Kids c void NoLeft lo hi x) (hμ : ∀ o, o ≤ P → μ o = o)
    (hh : hi ≤ P) : x.map (Spec.renamed P N μ) = x := by
  rw [← renamedAll_map]
  exact renamedAll_old hμ x h.done fun d hd => by have := (siblings_stop h.sib d hd).2; omega

theorem OpenN.lt {Q : Node → Prop} {hi : Nat} {q : Node} (h : OpenN c void Q hi q) : q.start < hi := by
  obtain ⟨x, he1, he2, _, _, he5, _, he6⟩ := h.ste
  have hle := he6.sib.le
  omega

theorem stack_lt {Q : Node → Prop} {hi : Nat} {x : List Node} (h : StackOK c void Q hi x) : ∀ k ∈ x.dropLast, k.start < hi := by
  induction x generalizing hi Q with
  | nil => exact h.elim
  | cons q qs ih =>
    cases qs with
    | nil => intro k hk; cases hk
    | cons q2 qs =>
      obtain ⟨ho, h2⟩ := h
      intro k hk
      rw [List.dropLast_cons_of_ne_nil (by simp)] at hk
      have := ho.lt
      rcases List.mem_cons.1 hk with rfl | hk
      · exact this
      · have := ih h2 k hk; omega

theorem ren_init {hi : Nat} {x x' : List Node} (h : StackOK c void NoLeft hi x) (hμ : ∀ o, o ≤ P → μ o = o) (hh : hi ≤ P)
    (hs : SRel [] 0 x x') : RN P N μ G F x x' := by
  induction x generalizing hi x' with
  | nil => exact h.elim
  | cons q qs ih =>
    cases qs with
    | nil =>
      obtain ⟨r', e, hr⟩ := hs
      exact ⟨r', e, by rw [hr, List.nil_append, map_shift_zero, Kids.renamed h hμ hh]⟩
    | cons q2 qs =>
      obtain ⟨qs', e, hs⟩ := hs
      obtain ⟨ho, h2⟩ := h
      obtain ⟨x, he1, he2, _, _, he5, _, he6⟩ := ho.ste
      have hle := he6.sib.le
      have hlt : q.start < hi := by omega
      rw [shift_zero] at e
      refine ⟨⟨fun _ => by omega, fun _ => by omega, fun _ k hk => ?_⟩, q.stop, qs', ?_, ih h2 (by omega) hs⟩
      · have := stack_lt h2 k hk; omega
      · rw [e, renamed_eq, he6.renamed hμ hh, ho.ets, he1, if_neg (by omega), moveA_old he5 hμ (by omega)]
        simp only [Option.map_some, Option.map_none]
        rw [hμ _ (by omega), hμ _ (by omega), ← he1, ← ho.ets]
        cases q; rfl

/-- Everything in a stack starts in front of the end. -/
theorem forest_lt {lo hi : Nat} {x : List Node} {k : Node} (h : ∀ d ∈ x, Deep (Done c void) d) (hs : Siblings lo x hi)
    (hk : InForest x k) : Deep (Done c void) k ∧ k.start < k.stop ∧ k.stop ≤ hi := by
  induction hk with
  | root hm => exact ⟨h _ hm, siblings_stop hs _ hm⟩
  | @child m n hm hc ih =>
    obtain ⟨⟨hd, hdc⟩, i1, i2⟩ := ih
    refine ⟨hdc _ hc, ?_⟩
    cases hste : m.startTagEnd with
    | none => have := (hd.noste hste).1; rw [this] at hc; cases hc
    | some e0 =>
      obtain ⟨_, _, h1, h2⟩ := hd.ste e0 hste
      have := siblings_stop h1 _ hc
      exact ⟨this.1, by omega⟩

theorem finished_lt {hi : Nat} {x : List Node} {k : Node} (h : StackOK c void NoLeft hi x) (hk : Finished x k) :
    k.start < hi := by
  induction x generalizing hi with
  | nil => exact h.elim
  | cons q qs ih =>
    cases qs with
    | nil =>
      obtain ⟨r, hr, hk⟩ := hk
      simp only [List.mem_singleton] at hr
      subst hr
      have h : Kids c void NoLeft 0 hi r.children := h
      have := (forest_lt h.done h.sib hk).2
      omega
    | cons q2 qs =>
      obtain ⟨ho, h2⟩ := h
      obtain ⟨r, hr, hk⟩ := hk
      rcases List.mem_cons.1 hr with rfl | hr
      · obtain ⟨x, he1, he2, _, _, he5, _, he6⟩ := ho.ste
        have := (forest_lt he6.done he6.sib hk).2
        omega
      · have := ih h2 ⟨r, hr, hk⟩
        have := ho.lt
        omega

/-! ### Elements that get an end -/

/-- The innermost node and the end tag, in text behind `a`. -/
structure Behind (a : Nat) (st : SS) (p : PState) : Prop where
  inn : st.inStart = true → a ≤ p.cur.start
  ends : st.inEnd = true → ∃ e, p.endTagStart = some e ∧ a ≤ e

theorem parseStep_same {s1 : Sc} {p q : PState} (hq : parseStep c void p s1 = .ok q) :
    (s1.tokenType ≠ .StartTagOpen → s1.tokenType ≠ .StartTagClose → s1.tokenType ≠ .StartTagSelfClose →
      s1.tokenType ≠ .EndTagClose → q.cur.start = p.cur.start) ∧
    (s1.tokenType ≠ .EndTagOpen → q.endTagStart = p.endTagStart) := by
  have hpop : ∀ {p q : PState}, p.pop = .ok q → q.endTagStart = p.endTagStart := by
    intro p q h
    unfold PState.pop at h
    split at h
    · cases h
    · cases h; rfl
  unfold parseStep at hq
  cases htt : s1.tokenType <;> simp only [htt] at hq
  case StartTagOpen => cases hq; exact ⟨fun h => absurd rfl h, fun _ => rfl⟩
  case StartTag => obtain ⟨t, _, hq⟩ := bind_ok hq; cases hq; exact ⟨fun _ _ _ _ => rfl, fun _ => rfl⟩
  case AttributeName => obtain ⟨t, _, hq⟩ := bind_ok hq; cases hq; exact ⟨fun _ _ _ _ => rfl, fun _ => rfl⟩
  case DelimiterAssign =>
    split at hq
    · obtain ⟨t, _, hq⟩ := bind_ok hq; cases hq; exact ⟨fun _ _ _ _ => rfl, fun _ => rfl⟩
    · cases hq; exact ⟨fun _ _ _ _ => rfl, fun _ => rfl⟩
  case AttributeValue =>
    obtain ⟨t, _, hq⟩ := bind_ok hq
    split at hq
    · obtain ⟨t, _, hq⟩ := bind_ok hq; cases hq; exact ⟨fun _ _ _ _ => rfl, fun _ => rfl⟩
    · cases hq; exact ⟨fun _ _ _ _ => rfl, fun _ => rfl⟩
  case StartTagClose =>
    refine ⟨fun _ h => absurd rfl h, fun _ => ?_⟩
    split at hq
    · cases hq; rfl
    · split at hq
      · split at hq
        · have := hpop hq; exact this
        · cases hq; rfl
      · have := hpop hq; exact this
  case StartTagSelfClose =>
    refine ⟨fun _ _ h => absurd rfl h, fun _ => ?_⟩
    split at hq
    · cases hq; rfl
    · have := hpop hq; exact this
  case EndTagOpen => cases hq; exact ⟨fun _ _ _ _ => rfl, fun h => absurd rfl h⟩
  case EndTag => obtain ⟨t, _, hq⟩ := bind_ok hq; cases hq; exact ⟨fun _ _ _ _ => rfl, fun _ => rfl⟩
  case EndTagClose =>
    refine ⟨fun _ _ _ h => absurd rfl h, fun _ => ?_⟩
    split at hq
    · obtain ⟨p1, h1, hq⟩ := bind_ok hq
      rw [hpop hq]
      exact (popUnclosed_end h1).1
    · cases hq; rfl
  all_goals (cases hq; exact ⟨fun _ _ _ _ => rfl, fun _ => rfl⟩)

theorem Behind.step {a : Nat} {s s1 : Sc} {p q : PState} (h : Behind a s.state p) (hf : LocFacts s s1)
    (hq : parseStep c void p s1 = .ok q) (ha : a ≤ s1.tokenOffset) : Behind a s1.state q where
  inn hs := by
    rcases hf.g1 hs with h1 | h1
    · have h2 := h.inn h1
      have g0 : s1.tokenType ≠ .StartTagClose := fun e => by have := (hf.g3 (.inl e)).2; rw [hs] at this; cases this
      have g1 : s1.tokenType ≠ .StartTagSelfClose := fun e => by have := (hf.g3 (.inr e)).2; rw [hs] at this; cases this
      have g2 : s1.tokenType ≠ .StartTagOpen := fun e => by have := (hf.g4 e).1; rw [h1] at this; cases this
      have g3 : s1.tokenType ≠ .EndTagClose := fun e => by
        have := inEnd_inStart (hf.g7 (.inr e)); rw [h1] at this; cases this
      rw [(parseStep_same hq).1 g2 g0 g1 g3]
      exact h2
    · simp only [parseStep, h1] at hq
      cases hq
      exact ha
  ends hs := by
    by_cases h1 : s1.tokenType = .EndTagOpen
    · simp only [parseStep, h1] at hq
      cases hq
      exact ⟨_, rfl, ha⟩
    · obtain ⟨e, h2, h3⟩ := h.ends ((hf.g5 hs).resolve_right h1)
      exact ⟨e, by rw [(parseStep_same hq).2 h1]; exact h2, h3⟩

/-- What is closed later. -/
theorem Res.later {a : Nat} {p r : PState} {s : Sc} (ho : Out c void p s r) (hb : Behind a s.state p) (ha : a ≤ s.pos)
    (hlen : s.pos ≤ c.src.length) {k : Node} (hk : Finished (r.cur :: r.parents) k) (hc : k.closed = true) (hlt : k.start < a) :
    Finished (p.cur :: p.parents) k ∨ ∃ e, k.endTagStart = some e ∧ a ≤ e := by
  obtain ⟨f, ho⟩ := ho
  induction f generalizing p s with
  | zero => cases ho
  | succ f ih =>
    unfold parseLoop at ho
    obtain ⟨s1, h1, ho⟩ := bind_ok ho
    have hst := scan_step h1
    split at ho
    · cases ho; exact .inl hk
    · rename_i hne
      obtain ⟨q, hq, ho⟩ := bind_ok ho
      have hoff := hst.offset_eq
      have hf := hst.locFacts hne
      obtain ⟨hle, hlen⟩ := hst.pos_le hlen
      rcases ih (hb.step hf hq (by omega)) (by omega) hlen ho with h2 | h2
      · rcases parseStep_closed hq h2 hc with h3 | ⟨_, ⟨h3, h4⟩ | ⟨h3, _, h4⟩⟩
        · exact .inl h3
        · have := hb.inn (hf.g3 h4).1
          omega
        · obtain ⟨e, h5, h6⟩ := hb.ends (hf.g7 (.inr h3))
          exact .inr ⟨e, by rw [h4]; exact h5, h6⟩
      · exact .inr h2

/-! ### The start tags -/

theorem moveA_attrs {l k : Nat} {x : List AttrText} {i : Nat} (hl : l ≤ i)
    (h : ∀ o, i ≤ o → o ≤ i + (printAttrs x).length → μ o = o + k - l) : moveA μ (attrNodes i x) = attrNodes (i + k - l) x := by
  induction x generalizing i with
  | nil => rfl
  | cons a x ih =>
    have hpl : (printAttrs (a :: x)).length = a.print.length + (printAttrs x).length := by simp [printAttrs]
    have hpl2 : a.gap.length ≤ a.print.length := by
      simp only [AttrText.print, List.length_append]; omega
    rw [hpl] at h
    simp only [attrNodes, moveA, List.map_cons]
    rw [h _ (by omega) (by omega)]
    have := ih (i := i + a.print.length) (by omega) fun o h1 h2 => h o (by omega) (by omega)
    simp only [moveA] at this
    rw [this]
    congr 3 <;> omega

variable {u : Uni} {cs : Bool}

theorem print_length (tag : TagText) (N : Str) :
    ({ tag with name := N } : TagText).print.length + tag.name.length = tag.print.length + N.length ∧
    tag.print.length = 1 + tag.name.length + (printAttrs tag.attrs).length + tag.gap.length := by
  constructor <;> simp only [TagText.print, List.length_append, List.length_cons, List.length_nil] <;> omega

/-- The parsers in front of the ends of the start tags. -/
theorem start_pre {pre y y' : Str} {tag : TagText} {b : Nat} {nx ny : List Node}
    (hpre : EndsInContent u cs pre) (hn : TagName tag.name) (hN : TagName N) (hl : tag.Legal)
    (hb : b = 62 ∨ (b = 47 ∧ SlashFree tag))
    (hμ0 : ∀ o, o ≤ pre.length → μ o = o)
    (hμ1 : ∀ o, pre.length < o → o ≤ pre.length + tag.print.length → μ o = o + N.length - tag.name.length)
    (hx : parse u cs void (pre ++ tag.print ++ b :: y) = .ok nx)
    (hz : parse u cs void (pre ++ ({ tag with name := N } : TagText).print ++ b :: y') = .ok ny) :
    ∃ (sA sB : Sc) (p p' q q' rx ry : PState) (sp sp' : Bool) (ty ty' : Option Str),
      InOpen sA (pre.length + tag.print.length) sp (keptName (parserCfg u cs (pre ++ tag.print ++ b :: y)) tag.name) ty ∧
      InOpen sB (pre.length + ({ tag with name := N } : TagText).print.length) sp'
        (keptName (parserCfg u cs (pre ++ ({ tag with name := N } : TagText).print ++ b :: y')) N) ty' ∧
      Out (parserCfg u cs (pre ++ tag.print ++ b :: y)) void p sA rx ∧
      Out (parserCfg u cs (pre ++ ({ tag with name := N } : TagText).print ++ b :: y')) void p' sB ry ∧
      (finishAll (pre ++ tag.print ++ b :: y).length rx.cur rx.parents).children = nx ∧
      (finishAll (pre ++ ({ tag with name := N } : TagText).print ++ b :: y').length ry.cur ry.parents).children = ny ∧
      p.parents = q.cur :: q.parents ∧ p'.parents = q'.cur :: q'.parents ∧
      InContent (parserCfg u cs (pre ++ tag.print ++ b :: y)) void q pre.length ∧
      (∀ G F, RN pre.length N μ G F (q.cur :: q.parents) (q'.cur :: q'.parents)) ∧
      p.cur = { Node.new pre.length (pre ++ tag.print ++ b :: y).length [] with
        tag := some tag.name, attributes := tag.nodes pre.length } ∧
      p'.cur = { Node.new pre.length (pre ++ ({ tag with name := N } : TagText).print ++ b :: y').length [] with
        tag := some N, attributes := moveA μ (tag.nodes pre.length) } := by
  obtain ⟨a, t, hp, ht, ha⟩ := hpre
  have e1 : pre ++ tag.print ++ b :: y = a ++ (t ++ (tag.print ++ b :: y)) := by rw [hp]; simp
  have e2 : pre ++ ({ tag with name := N } : TagText).print ++ b :: y' =
    a ++ (t ++ (({ tag with name := N } : TagText).print ++ b :: y')) := by rw [hp]; simp
  have hlen : pre.length = a.length + t.length := by rw [hp]; simp
  rw [e1] at hx
  rw [e2] at hz
  obtain ⟨s, q, q', rx, ry, h1, h2, h3, h4, h5, h6, h7⟩ := parse_to_content ha hx hz
  rw [← e1] at h4 h6 h2
  rw [← e2] at h5 h7
  obtain ⟨sA, h8, h9⟩ := h4.text (t := t) (x := tag.print ++ b :: y) h1 (by simp [parserCfg, e1]) ht
  obtain ⟨sB, h10, h11⟩ := h5.text (t := t) (x := ({ tag with name := N } : TagText).print ++ b :: y') h1 (by simp [parserCfg, e2]) ht
  rw [← hlen] at h8 h10
  have hin : InContent (parserCfg u cs (pre ++ tag.print ++ b :: y)) void q pre.length :=
    StackOK.mono h2 (by omega) (by simp [parserCfg])
  have hdA : (parserCfg u cs (pre ++ tag.print ++ b :: y)).src.drop pre.length = tag.print ++ b :: y := by simp [parserCfg]
  have hdB : (parserCfg u cs (pre ++ ({ tag with name := N } : TagText).print ++ b :: y')).src.drop pre.length =
    ({ tag with name := N } : TagText).print ++ b :: y' := by simp [parserCfg]
  obtain ⟨s1, p1, sp, ty, hs1, -, -, g1, hc1, hp1⟩ := h9.start h8 hdA hn hl hb
  obtain ⟨s1', p1', sp', ty', hs1', -, -, g1', hc1', hp1'⟩ :=
    h11.start (tag := { tag with name := N }) h10 hdB hN hl hb
  refine ⟨s1, s1', p1, p1', q, q', rx, ry, sp, sp', ty, ty', hs1, hs1', g1, g1', h6, h7, hp1, hp1', hin,
    fun G F => ren_init hin hμ0 (Nat.le_refl _) h3, hc1, ?_⟩
  rw [hc1']
  have := print_length tag N
  have hA : moveA μ (tag.nodes pre.length) = ({ tag with name := N } : TagText).nodes pre.length := by
    unfold TagText.nodes
    rw [moveA_attrs (l := tag.name.length) (k := N.length) (by omega) (fun o o1 o2 => hμ1 o (by omega) (by omega))]
    have : pre.length + 1 + tag.name.length + N.length - tag.name.length = pre.length + 1 + N.length := by omega
    rw [this]
  rw [hA]
  rfl

/-- The start tag of an element with content. -/
theorem start_open {pre y y' : Str} {tag : TagText} {nx ny : List Node}
    (hpre : EndsInContent u cs pre) (hn : LegalName tag.name) (hN : LegalName N) (hl : tag.Legal)
    (hv : tag.name ∉ void) (hv' : N ∉ void)
    (hμ0 : ∀ o, o ≤ pre.length → μ o = o)
    (hμ1 : ∀ o, pre.length < o → o ≤ pre.length + tag.print.length + 1 → μ o = o + N.length - tag.name.length)
    (hx : parse u cs void (pre ++ tag.print ++ 62 :: y) = .ok nx)
    (hz : parse u cs void (pre ++ ({ tag with name := N } : TagText).print ++ 62 :: y') = .ok ny) :
    ∃ (sA sB : Sc) (p p' rx ry : PState),
      InText sA (pre.length + tag.print.length + 1) ∧
      InText sB (pre.length + ({ tag with name := N } : TagText).print.length + 1) ∧
      Out (parserCfg u cs (pre ++ tag.print ++ 62 :: y)) void p sA rx ∧
      Out (parserCfg u cs (pre ++ ({ tag with name := N } : TagText).print ++ 62 :: y')) void p' sB ry ∧
      (finishAll (pre ++ tag.print ++ 62 :: y).length rx.cur rx.parents).children = nx ∧
      (finishAll (pre ++ ({ tag with name := N } : TagText).print ++ 62 :: y').length ry.cur ry.parents).children = ny ∧
      (∀ F, RN pre.length N μ False F (p.cur :: p.parents) (p'.cur :: p'.parents)) ∧ NoneYet pre.length p := by
  obtain ⟨s1, s1', p1, p1', q, q', rx, ry, sp, sp', ty, ty', hs1, hs1', g1, g1', h6, h7, hp1, hp1', hin, hR, hc1, hc1'⟩ :=
    start_pre hpre hn.1 hN.1 hl (.inl rfl) hμ0 (fun o h1 h2 => hμ1 o h1 (by omega)) hx hz
  have hdA : (parserCfg u cs (pre ++ tag.print ++ 62 :: y)).src.drop (pre.length + tag.print.length) = 62 :: y := by
    simp [parserCfg]
  have hdB : (parserCfg u cs (pre ++ ({ tag with name := N } : TagText).print ++ 62 :: y')).src.drop
    (pre.length + ({ tag with name := N } : TagText).print.length) = 62 :: y' := by simp [parserCfg]
  obtain ⟨s2, p2, hs2, hst2, g2, hx2⟩ := g1.close hs1 hdA (by rw [hp1]; simp)
  obtain ⟨s2', p2', hs2', hst2', g2', hx2'⟩ := g1'.close hs1' hdB (by rw [hp1']; simp)
  rw [afterStartTag_html hs1 (.inl hn)] at hst2
  rw [afterStartTag_html (tag := { tag with name := N }) hs1' (.inl hN)] at hst2'
  rw [hc1] at hx2
  rw [hc1'] at hx2'
  simp only [Option.any_some] at hx2 hx2'
  rw [if_neg (by simpa using hv)] at hx2
  rw [if_neg (by simpa using hv')] at hx2'
  cases hx2; cases hx2'
  refine ⟨s2, s2', _, _, rx, ry, ⟨hst2, hs2⟩, ⟨hst2', hs2'⟩, g2, g2', h6, h7, fun F => ?_, ?_⟩
  · simp only [hp1, hp1']
    have := (hR False F).cons (q := { Node.new pre.length (pre ++ tag.print ++ 62 :: y).length [] with
          tag := some tag.name, attributes := tag.nodes pre.length, closed := false,
          stop := pre.length + tag.print.length + 1, startTagEnd := some (pre.length + tag.print.length + 1) })
          ⟨fun h => h.elim, fun h => absurd h (Nat.lt_irrefl _), fun _ k hk => Nat.ne_of_lt (stack_lt hin k hk)⟩
          (pre.length + ({ tag with name := N } : TagText).print.length + 1)
    have e : some (pre.length + ({ tag with name := N } : TagText).print.length + 1) =
        some (μ (pre.length + tag.print.length + 1)) := by
      have := print_length tag N
      rw [hμ1 _ (by omega) (by omega)]
      congr 1; omega
    rw [e]
    rw [renamed_eq] at this
    simp only [Node.new, if_true, List.map_nil, Option.map_some, Option.map_none, hμ0 _ (Nat.le_refl _)] at this ⊢
    exact this
  · intro k hk hs _
    rw [hp1] at hk
    have := finished_lt hin ((Finished.push (by rfl) k).1 hk)
    omega

/-! ### The end tags -/

/-- The parser at the end of an end tag, in front of the last token and behind it. -/
theorem Res.endTagStep {i : Nat} {name gap x : Str} {s : Sc} {p r : PState} (h : Out c void p s r) (hs : InText s i)
    (hd : c.src.drop i = b!"</" ++ name ++ gap ++ b!">" ++ x) (hn : TagName name) (hg : Spaces gap) :
    ∃ s' p2 p', InText s' (i + (name.length + gap.length + 3)) ∧ Out c void p' s' r ∧ p2.cur = p.cur ∧
      p2.parents = p.parents ∧ p2.endTagStart = some i ∧
      p2.endTagName = some (foldName c.uni c.caseSensitive name) ∧ s'.tokenType = .EndTagClose ∧
      s'.tokenEnd = i + (name.length + gap.length + 3) ∧ parseStep c void p2 s' = .ok p' := by
  have hne : name ≠ [] := by obtain ⟨⟨a, k, e, _⟩, _⟩ := id hn; rw [e]; simp
  have hlen : elementNameLen c.uni (name ++ (gap ++ 62 :: x)) = name.length := by
    obtain ⟨z, t, hz, hz2⟩ : ∃ z t, gap ++ 62 :: x = z :: t ∧ TagSep z := by
      cases gap with
      | nil => exact ⟨62, x, rfl, .inr (.inl rfl)⟩
      | cons b g => exact ⟨b, g ++ 62 :: x, rfl, .inl (hg b List.mem_cons_self)⟩
    have hlen := elementNameLen_exact (u := c.uni) (t := t) hn hz2
    rwa [← hz] at hlen
  have hd : c.src.drop i = b!"</" ++ (name ++ (gap ++ 62 :: x)) := by simpa using hd
  have hp : s.pos < c.src.length := hs.pos ▸ pos_lt hd
  have hr := rest_eq hs.pos hd
  have hpos : 0 < name.length := List.length_pos_iff.2 hne
  obtain ⟨a, k, e⟩ := List.exists_cons_of_ne_nil hne
  obtain ⟨s1, p1, h, ha, hb, he, hst, hcur, hpar⟩ : ∃ (s1 : Sc) (p1 : PState), Out c void p1 s1 r ∧
      s1.state = .AfterOpeningEndTag ∧ s1.pos = i + 2 ∧ c.src.drop (i + 2) = name ++ (gap ++ 62 :: x) ∧
      p1.endTagStart = some i ∧ p1.cur = p.cur ∧ p1.parents = p.parents := by
    obtain ⟨s1, p1, h1, h2, h3⟩ := h.step hp (not_stuck (by rw [hs.state]; decide) (by rw [hs.state]; decide))
    have h1 := h1.invContent hs.state hp
    cases h1 with
    | startComment h => rw [hr] at h; simp at h
    | startDoctype h => rw [hr] at h; simp [lowerByte] at h
    | startTagOpen _ h => rw [hr] at h; simp at h
    | content h0 h1 => rw [hr] at h0; simp at h0
    | endTagOpen =>
      simp only [parseStep, fin] at h2
      cases h2
      exact ⟨_, _, h3, rfl, by simp [adv, fin, hs.pos], drop_add hd rfl, by simp [hs.pos], rfl, rfl⟩
  obtain ⟨s2, p2, h, ha, hb, he, hst, hcur, hpar, hname⟩ : ∃ (s2 : Sc) (p2 : PState), Out c void p2 s2 r ∧
      s2.state = .WithinEndTag ∧ s2.pos = i + 2 + name.length ∧
      c.src.drop (i + 2 + name.length) = gap ++ 62 :: x ∧
      p2.endTagStart = some i ∧ p2.cur = p.cur ∧ p2.parents = p.parents ∧
      p2.endTagName = some (if c.caseSensitive then name else toLower c.uni name) := by
    have hr := rest_eq hb he
    have hp : s1.pos < c.src.length := by rw [hb]; rw [e] at he; exact pos_lt he
    obtain ⟨s2, p2, h1, h2, h3⟩ := h.step hp (not_stuck (by rw [ha]; decide) (by rw [ha]; decide))
    cases h1 with
    | endTagName =>
      simp only [parseStep, fin] at h2
      obtain ⟨t, ht, h2⟩ := bind_ok h2
      cases h2
      have ht := (sliceStr_ok ht).2.2.2.2
      simp only [adv] at ht
      rw [hr, hlen, bytesIn_eq_take, hb, he] at ht
      simp at ht
      subst ht
      exact ⟨_, _, h3, rfl, by simp only [fin, adv, hr, hlen, hb], drop_add he rfl, hst, hcur, hpar, rfl⟩
    | endTagWs _ _ _ h0 => rw [hr, hlen] at h0; omega
    | endTagNoName _ _ _ h0 => rw [hr, hlen] at h0; omega
    | endTagImmediate _ _ _ h0 => rw [hr, hlen] at h0; omega
    | _ => exfalso; first | omega | (simp_all; done)
  -- white space
  obtain ⟨s3, h, ha, hb, he⟩ : ∃ s3 : Sc, Out c void p2 s3 r ∧ s3.state = .WithinEndTag ∧
      s3.pos = i + 2 + name.length + gap.length ∧ c.src.drop (i + 2 + name.length + gap.length) = 62 :: x := by
    have hd3 := drop_add (n := gap.length) he rfl
    by_cases hgap : gap = []
    · subst hgap
      exact ⟨s2, h, ha, hb, he⟩
    · have hr := rest_eq hb he
      have hp : s2.pos < c.src.length := by
        have := congrArg List.length he
        simp at this; omega
      have hl : wsLen (rest c s2) = gap.length := by rw [hr, wsLen_exact hg (by unfold Space; omega)]
      have h0 : 0 < gap.length := List.length_pos_iff.2 hgap
      have hhd : ∃ b, (rest c s2).head? = some b ∧ Space b := by
        cases gap with
        | nil => exact absurd rfl hgap
        | cons b g => exact ⟨b, by rw [hr]; rfl, hg b List.mem_cons_self⟩
      obtain ⟨b, hhd, hb'⟩ := hhd
      obtain ⟨s3, p3, h1, h2, h3⟩ := h.step hp (not_stuck (by rw [ha]; decide) (by rw [ha]; decide))
      have h1 := h1.invEndTag ha hp
      cases h1 with
      | ws =>
        simp only [parseStep, fin] at h2
        cases h2
        refine ⟨_, h3, ?_, ?_, hd3⟩
        · exact ha
        · simp only [fin, adv, hl, hb]
      | pseudo _ h => rw [hhd] at h; cases h; unfold Space at hb'; omega
      | unknown h => omega
      | close h => rw [hhd] at h; cases h; unfold Space at hb'; omega
  have hr := rest_eq hb he
  have hp : s3.pos < c.src.length := hb ▸ pos_lt he
  obtain ⟨s4, p3, h1, h2, h3⟩ := h.step hp (not_stuck (by rw [ha]; decide) (by rw [ha]; decide))
  have h1 := h1.invEndTag ha hp
  have hw : wsLen (rest c s3) = 0 := by rw [hr]; simp [wsLen, isWs]
  cases h1 with
  | ws => omega
  | pseudo _ h => rw [hr] at h; simp at h
  | unknown _ h => rw [hr] at h; simp at h
  | close =>
    refine ⟨_, p2, p3, ⟨rfl, ?_⟩, h3, hcur, hpar, hst, hname, rfl, ?_, h2⟩
    · simp only [fin, adv, hb]; omega
    · simp only [Sc.tokenEnd, fin, adv, hb]; omega

theorem Hit.mem {u : Uni} {nm : Option Str} {q : Node} {x : List Node} (h : Hit P u cs nm q x) :
    ∃ k ∈ (q :: x).dropLast, k.start = P := by
  induction x generalizing q with
  | nil => exact h.elim
  | cons q2 qs ih =>
    rw [List.dropLast_cons_of_ne_nil (by simp)]
    rcases h with ⟨_, h⟩ | ⟨_, h⟩
    · exact ⟨q, by simp, h⟩
    · obtain ⟨k, h1, h2⟩ := ih h
      exact ⟨k, List.mem_cons_of_mem _ h1, h2⟩

/-- The end tag with the new name closes the element with the new name. -/
theorem matchDepth_hit {nm : Option Str} {q q' : Node} {x x' : List Node} (hh : Hit P u cs nm q x)
    (hF : ∀ t, F t → ¬ SameName u cs (some N) (some t)) (h : RN P N μ G F (q :: x) (q' :: x')) :
    matchDepth u cs (some (foldName u cs N)) q' x' = matchDepth u cs nm q x := by
  induction x generalizing q q' x' with
  | nil => exact hh.elim
  | cons q2 qs ih =>
    have hl := h.length
    cases x' with
    | nil => simp at hl
    | cons q2' qs' =>
      have hl' : (q2' :: qs').length = (q2 :: qs).length := by simpa using hl
      obtain ⟨⟨e', e⟩, h, hk⟩ := h.uncons (by simp)
      unfold matchDepth
      rcases hh with ⟨h1, h2⟩ | ⟨h1, h2⟩
      · have : q'.isSameTag u (some (foldName u cs N)) cs = true := by
          refine (isSameTag_iff u cs q' (some N)).2 ?_
          rw [e, renamed_eq]
          simp only [h2, if_true]
          unfold SameName; split <;> rfl
        rw [h1, this]
        simp only [if_true, hl']
      · have hlt : P < q.start := by
          rcases Nat.lt_or_ge P q.start with h0 | h0
          · exact h0
          · obtain ⟨k, k1, k2⟩ := h2.mem
            exact absurd k2 (hk.2.2 h0 k k1)
        have : q'.isSameTag u (some (foldName u cs N)) cs = false := by
          cases h0 : q'.isSameTag u (some (foldName u cs N)) cs with
          | false => rfl
          | true =>
            have h3 := (isSameTag_iff u cs q' (some N)).1 h0
            have h4 : q'.tag = q.tag := by rw [e, renamed_eq]; exact if_neg (by omega)
            rw [h4] at h3
            cases ht : q.tag with
            | none => rw [ht] at h3; unfold SameName at h3; split at h3 <;> cases h3
            | some t => rw [ht] at h3; exact absurd h3.symm (hF t (hk.2.1 hlt t ht))
        rw [h1, this]
        exact ih h2 h

theorem RN.upgrade {x x' : List Node} (h : RN P N μ G F x x') (hk : ∀ k ∈ x.dropLast, k.start ≠ P) :
    RN P N μ True (fun _ => True) x x' := by
  induction x generalizing x' with
  | nil => exact h.elim
  | cons q qs ih =>
    cases qs with
    | nil => exact h
    | cons q2 qs =>
      obtain ⟨h1, e', qs', e, h⟩ := h
      rw [List.dropLast_cons_of_ne_nil (by simp)] at hk
      exact ⟨⟨fun _ => hk q (by simp), fun _ _ _ => trivial, h1.2.2⟩, e', qs', e, ih h fun k h => hk k (by simp [h])⟩

/-- The end tag of the renamed element. -/
theorem endTag_ren {c' : Cfg} {s1 s1' : Sc} {p p' q q' : PState} {E : Nat} (hs : RN P N μ G F (p.cur :: p.parents) (p'.cur :: p'.parents))
    (hu : c'.uni = c.uni) (hc : c'.caseSensitive = c.caseSensitive)
    (hh : Hit P c.uni c.caseSensitive p.endTagName p.cur p.parents)
    (hF : ∀ t, F t → ¬ SameName c.uni c.caseSensitive (some N) (some t))
    (he : p.endTagStart = some E) (he' : p'.endTagStart = some (μ E))
    (hn : p'.endTagName = some (foldName c.uni c.caseSensitive N))
    (t1 : s1.tokenType = .EndTagClose) (t2 : s1'.tokenType = .EndTagClose) (t3 : s1'.tokenEnd = μ s1.tokenEnd)
    (hq : parseStep c void p s1 = .ok q) (hq' : parseStep c' void p' s1' = .ok q') :
    RN P N μ True (fun _ => True) (q.cur :: q.parents) (q'.cur :: q'.parents) := by
  have hE : ERn (fun _ _ => True) P N μ G F E p p' := ⟨hs, he, he', trivial⟩
  have hl : p'.parents.length = p.parents.length := by simpa using hs.length
  simp only [parseStep, t1] at hq
  simp only [parseStep, t2] at hq'
  rw [hu, hc, hn, matchDepth_hit hh hF hs, if_pos hh.pos, hl] at hq'
  rw [if_pos hh.pos] at hq
  obtain ⟨p1, h1, hq⟩ := bind_ok hq
  obtain ⟨p1', h1', hq'⟩ := bind_ok hq'
  have h2 := popUnclosed_ren hE (n := p.parents.length - matchDepth c.uni c.caseSensitive p.endTagName p.cur p.parents) (by omega)
  rw [h1, h1'] at h2
  obtain ⟨_, e, h2⟩ := h2
  cases e
  have hP := (popUnclosed_hit (P := P) rfl hh.pos h1).1.2 hh
  have h3 := h2.pop (x := s1.tokenEnd)
  rw [← t3, hq, hq'] at h3
  obtain ⟨_, e, h3⟩ := h3
  cases e
  refine h3.stack.upgrade ?_
  have h4 := h2.stack
  unfold PState.pop at hq
  split at hq
  · cases hq
  · rename_i a x hax
    have hax : p1.parents = a :: x := hax
    cases hq
    rw [hax] at h4
    have h5 : ∃ b y, p1'.parents = b :: y := by
      have := h4.length
      cases hb : p1'.parents with
      | nil => rw [hb] at this; simp at this
      | cons b y => exact ⟨b, y, rfl⟩
    obtain ⟨b, y, hb⟩ := h5
    have h6 := (h4.uncons (by simp)).2.2.2.2 (by omega)
    intro k hk
    cases x with
    | nil => cases hk
    | cons d x =>
      rw [List.dropLast_cons_of_ne_nil (by simp)] at hk h6
      rcases List.mem_cons.1 hk with rfl | hk
      · exact h6 a (by simp)
      · exact h6 k (List.mem_cons_of_mem _ hk)

/-! ### Between the tags -/

theorem bytesIn_common {a x y : Str} {i j : Nat} (h : j ≤ a.length) : bytesIn (a ++ x) i j = bytesIn (a ++ y) i j := by
  unfold bytesIn
  rw [List.take_append_of_le_length h, List.take_append_of_le_length h]

theorem middle_ren {m preA preB y y' : Str} {len : Nat} {sA sB : Sc} {p p' rx ry : PState}
    (hm : EndsInContent u cs m)
    (hA : InText sA preA.length) (hB : InText sB preB.length)
    (hoA : Out (parserCfg u cs (preA ++ (m ++ y))) void p sA rx) (hoB : Out (parserCfg u cs (preB ++ (m ++ y'))) void p' sB ry)
    (hk : ∀ o, o ≤ m.length → μ (o + preA.length) = o + preB.length) (hP : P < preA.length)
    (hF : ∀ ts, tokens (parserCfg u cs m) (.new 0 .WithinContent) = .ok ts →
      ∀ t ∈ ts, t.type = .StartTag ∨ t.type = .EndTag → F (bytesIn m t.offset t.stop))
    (hM : G ∨ (∀ t, F t → ¬ SameName u cs (some N) (some t)) ∧
      ∀ k, InForest (finishAll len rx.cur rx.parents).children k → k.start = P → k.closed = true →
        preA.length + m.length < k.stop)
    (hR : RN P N μ G F (p.cur :: p.parents) (p'.cur :: p'.parents)) (hJ : G ∨ NoneYet P p)
    (hfree : ∃ ts, tokens (parserCfg u cs m) (.new 0 .WithinContent) = .ok ts) :
    ∃ (q q' : PState) (sA' sB' : Sc), InText sA' (preA.length + m.length) ∧ InText sB' (preB.length + m.length) ∧
      Out (parserCfg u cs (preA ++ (m ++ y))) void q sA' rx ∧ Out (parserCfg u cs (preB ++ (m ++ y'))) void q' sB' ry ∧
      RN P N μ G F (q.cur :: q.parents) (q'.cur :: q'.parents) ∧ (G ∨ NoneYet P q) := by
  obtain ⟨a, t, rfl, ht, ha⟩ := hm
  obtain ⟨q, q', s1, s2, h1, h2, h3, h4, h5, h6⟩ : ∃ (q q' : PState) (sA' sB' : Sc), InText sA' (preA.length + a.length) ∧
      InText sB' (preB.length + a.length) ∧ Out (parserCfg u cs (preA ++ (a ++ t ++ y))) void q sA' rx ∧
      Out (parserCfg u cs (preB ++ (a ++ t ++ y'))) void q' sB' ry ∧
      RN P N μ G F (q.cur :: q.parents) (q'.cur :: q'.parents) ∧ (G ∨ NoneYet P q) := by
    rcases ha with rfl | ⟨i, tk, hb, hst⟩
    · exact ⟨p, p', sA, sB, hA, hB, hoA, hoB, hR, hJ⟩
    · obtain ⟨z, hz, hw, _, h1⟩ := hb.split
      have hz : a = z ++ [62] := hz
      have hzl : a.length = z.length + 1 := by rw [hz]; simp
      obtain ⟨s2, hr, hlen⟩ := tokens_run hb.toks
      have Gx : Agree z (parserCfg u cs a) (parserCfg u cs (a ++ t ++ y)) :=
        ⟨⟨[], hz⟩, ⟨t ++ y, by simp [parserCfg, hz]⟩, rfl, rfl, rfl, hw⟩
      have Gxy : Agree z (parserCfg u cs (a ++ t ++ y)) (parserCfg u cs (a ++ t ++ y')) :=
        ⟨⟨t ++ y, by simp [parserCfg, hz]⟩, ⟨t ++ y', by simp [parserCfg, hz]⟩, rfl, rfl, rfl, hw⟩
      have hrx := hr.keeps Gx (Nat.zero_le _) rfl h1 hb.kind hb.nonempty
      have hl := hr.last
      have hs2 : s2.state = .WithinContent := by rw [← hst, ← hl]; rfl
      have hpos : s2.pos = a.length := by
        have : tk.stop = s2.pos := by rw [← hl]; rfl
        omega
      obtain ⟨ts, hts⟩ := hfree
      have happ := tokens_append hw hz t (Nat.zero_le _) hb.toks h1 hb.kind hb.nonempty
      have hts' : tokens { parserCfg u cs a with src := (parserCfg u cs a).src ++ t } (.new 0 .WithinContent) = .ok ts := hts
      rw [happ] at hts'
      have hmem : ∀ x ∈ i ++ [tk], x ∈ ts := by
        cases h0 : tokens { parserCfg u cs a with src := t } (.new 0 tk.state) with
        | error e => rw [h0] at hts'; cases hts'
        | ok l =>
          rw [h0] at hts'
          have := Except.ok.inj hts'
          intro x hx
          rw [← this]
          exact List.mem_append_left _ hx
      have hstop : ∀ x ∈ i ++ [tk], x.stop ≤ a.length := by
        have hd : Contiguous 0 (i ++ [tk]) a.length := by
          obtain ⟨h3, h4, h5, _⟩ := hr.contiguous (by simp [Sc.new])
          rw [hpos] at h3
          exact h3
        exact (contiguous_le hd).2
      have hxF : ∀ x ∈ i ++ [tk], x.type = .StartTag ∨ x.type = .EndTag →
          F (bytesIn (parserCfg u cs (a ++ t ++ y)).src x.offset x.stop) := fun x hx h0 => by
        have := hF ts hts x (hmem x hx) h0
        have e : bytesIn (a ++ t) x.offset x.stop = bytesIn (parserCfg u cs (a ++ t ++ y)).src x.offset x.stop := by
          have e0 : (parserCfg u cs (a ++ t ++ y)).src = a ++ (t ++ y) := by simp [parserCfg]
          rw [e0]
          exact bytesIn_common (hstop x hx)
        rwa [e] at this
      obtain ⟨q, q', sA', sB', k1, k2, k3, k4, k5, k6⟩ := Res.pairTo (μ := μ) (G := G) (N := N) (len := len) (pre := preA) (pre' := preB)
        Gxy hrx (Nat.zero_le _) rfl h1 hb.kind hb.nonempty hoA hoB (eqv_text hA) (eqv_text hB)
        (fun o ho => hk o (by simp only [List.length_append]; omega)) hP hxF
        (hM.imp id fun ⟨a1, a2⟩ => ⟨a1, fun k b1 b2 b3 => by
          have := a2 k b1 b2 b3
          simp only [List.length_append] at this
          omega⟩)
        (.outer (by rw [hA.state]; rfl) (by rw [hA.state]; rfl) hR) hJ
      have eA : sA'.state = .WithinContent := k3.1.trans hs2
      have eB : sB'.state = .WithinContent := k4.1.trans hs2
      have pA : sA'.pos = s2.pos + preA.length := k3.2.1
      have pB : sB'.pos = s2.pos + preB.length := k4.2.1
      exact ⟨q, q', sA', sB', ⟨eA, by omega⟩, ⟨eB, by omega⟩, k1, k2, k5.out (by rw [eA]; rfl), k6⟩
  obtain ⟨s3, g1, g2⟩ := h3.text (t := t) (x := y) h1 (by simp [parserCfg]) ht
  obtain ⟨s4, g3, g4⟩ := h4.text (t := t) (x := y') h2 (by simp [parserCfg]) ht
  refine ⟨q, q', s3, s4, ?_, ?_, g2, g4, h5, h6⟩
  · rw [List.length_append, ← Nat.add_assoc]; exact g1
  · rw [List.length_append, ← Nat.add_assoc]; exact g3

/-! ### The rest -/

theorem Run.among {s s2 : Sc} {ts l : List Tok} (hr : Run c s ts s2) (h : tokens c s = .ok l) : ∀ t ∈ ts, t ∈ l := by
  rw [← tokensF_tokens (f := ts.length + (mu c s + 1)) (by omega), hr.tokensF] at h
  cases h0 : Html.tokensF c (mu c s + 1) s2 with
  | error e => rw [h0] at h; cases h
  | ok l' =>
    rw [h0] at h
    have := Except.ok.inj h
    intro t ht
    rw [← this]
    exact List.mem_append_left _ ht

theorem rest_ren {rest preA preB : Str} {sA sB : Sc} {p p' rx ry : PState}
    (hA : InText sA preA.length) (hB : InText sB preB.length)
    (hoA : Out (parserCfg u cs (preA ++ rest)) void p sA rx) (hoB : Out (parserCfg u cs (preB ++ rest)) void p' sB ry)
    (hk : ∀ o, o ≤ rest.length → μ (o + preA.length) = o + preB.length) (hP : P < preA.length)
    (hF : ∀ ts s2, Run (parserCfg u cs rest) (.new 0 .WithinContent) ts s2 →
      ∀ t ∈ ts, t.type = .StartTag ∨ t.type = .EndTag → F (bytesIn rest t.offset t.stop))
    (hM : G ∨ (∀ t, F t → ¬ SameName u cs (some N) (some t)) ∧
      ∀ k, InForest (finishAll (preA ++ rest).length rx.cur rx.parents).children k → k.start = P → k.closed = true → False)
    (hR : RN P N μ G F (p.cur :: p.parents) (p'.cur :: p'.parents)) (hJ : G ∨ NoneYet P p) :
    (finishAll (preB ++ rest).length ry.cur ry.parents).children =
      renamedAll P N μ (finishAll (preA ++ rest).length rx.cur rx.parents).children := by
  obtain ⟨f, hoA⟩ := hoA
  obtain ⟨st, h⟩ := pair_end (c := parserCfg u cs rest) (pre := preA) (pre' := preB) (μ := μ) (N := N) hoA hoB (eqv_text hA) (eqv_text hB)
    (Nat.zero_le _) hk hP hF hM (.outer (by rw [hA.state]; rfl) (by rw [hA.state]; rfl) hR) hJ
  have h1 := h.finish (len := (preA ++ rest).length)
  have h2 : μ (preA ++ rest).length = (preB ++ rest).length := by
    have := hk rest.length (Nat.le_refl _)
    simp only [List.length_append]
    rw [Nat.add_comm, this, Nat.add_comm]
  rw [h2] at h1
  rw [h1, renamedAll_map]

theorem drop_two (x y z : Str) : (x ++ (y ++ z)).drop (x.length + y.length) = z := by
  rw [← List.append_assoc, ← List.length_append, List.drop_left]

theorem tokens_of_parse {src : Str} {roots : List Node} (h : parse u cs void src = .ok roots) :
    ∃ ts, tokens (parserCfg u cs src) (.new 0 .WithinContent) = .ok ts := by
  unfold parse at h
  obtain ⟨p, h1, h⟩ := bind_ok h
  rw [← Props.parse_tokens]
  exact parseLoop_tokens h1

/-- The element has an end tag. -/
theorem parse_renamed {pre m old gap rest : Str} {tag : TagText} {nx ny : List Node} {n : Node}
    (hpre : EndsInContent u cs pre) (hn : LegalName tag.name) (hN : LegalName N) (hl : tag.Legal)
    (hv : tag.name ∉ void) (hv' : N ∉ void) (hm : EndsInContent u cs m) (hf : NameFree u cs m N)
    (ho : TagName old) (hg : Spaces gap)
    (hx : parse u cs void (pre ++ tag.print ++ b!">" ++ m ++ b!"</" ++ old ++ gap ++ b!">" ++ rest) = .ok nx)
    (hz : parse u cs void (pre ++ ({ tag with name := N } : TagText).print ++ b!">" ++ m ++ b!"</" ++ N ++ gap ++ b!">" ++ rest) = .ok ny)
    (hin : InForest nx n) (hs : n.start = pre.length)
    (hE : n.endTagStart = some (pre.length + tag.print.length + 1 + m.length)) :
    ny = renamedAll pre.length N
      (movedBoth pre.length (pre.length + tag.print.length + 1 + m.length) tag.name.length old.length N.length) nx := by
  obtain ⟨ts0, hts0, hfree⟩ := hf
  have hpl := print_length tag N
  obtain ⟨E, hEd⟩ : ∃ E, E = pre.length + tag.print.length + 1 + m.length := ⟨_, rfl⟩
  rw [← hEd] at hE ⊢
  obtain ⟨μ, hμ⟩ : ∃ μ, μ = movedBoth pre.length E tag.name.length old.length N.length := ⟨_, rfl⟩
  rw [← hμ]
  have μ0 : ∀ o, o ≤ pre.length → μ o = o := fun o h => by rw [hμ]; exact if_pos h
  have μ1 : ∀ o, pre.length < o → o ≤ E → μ o = o + N.length - tag.name.length := fun o h h1 => by
    rw [hμ]; unfold movedBoth; rw [if_neg (by omega), if_pos h1]
  have μ2 : ∀ o, E < o → μ o = o + N.length + N.length - tag.name.length - old.length := fun o h => by
    rw [hμ]; unfold movedBoth; rw [if_neg (by omega), if_neg (by omega)]
  have eA : pre ++ tag.print ++ b!">" ++ m ++ b!"</" ++ old ++ gap ++ b!">" ++ rest =
    pre ++ tag.print ++ 62 :: (m ++ (b!"</" ++ old ++ gap ++ b!">" ++ rest)) := by simp
  have eB : pre ++ ({ tag with name := N } : TagText).print ++ b!">" ++ m ++ b!"</" ++ N ++ gap ++ b!">" ++ rest =
    pre ++ ({ tag with name := N } : TagText).print ++ 62 :: (m ++ (b!"</" ++ N ++ gap ++ b!">" ++ rest)) := by simp
  obtain ⟨ts, hts⟩ := tokens_of_parse hx
  have hwide := (Doc.mk hx hts).end_wide hin hE
  have hcl := ((parse_done hx hin).ets _ hE).1
  have huniq : ∀ k, InForest nx k → k.start = pre.length → k = n := fun k h1 h2 => start_unique hx h1 hin (h2.trans hs.symm)
  rw [eA] at hx
  rw [eB] at hz
  -- the start tags
  obtain ⟨sA, sB, p, p', rx, ry, a1, a2, a3, a4, a5, a6, a7, a8⟩ :=
    start_open hpre hn hN hl hv hv' μ0 (fun o h1 h2 => μ1 o h1 (by omega)) hx hz
  -- between the tags
  have e1 : pre ++ tag.print ++ 62 :: (m ++ (b!"</" ++ old ++ gap ++ b!">" ++ rest)) =
    (pre ++ tag.print ++ b!">") ++ (m ++ (b!"</" ++ old ++ gap ++ b!">" ++ rest)) := by simp
  have e2 : pre ++ ({ tag with name := N } : TagText).print ++ 62 :: (m ++ (b!"</" ++ N ++ gap ++ b!">" ++ rest)) =
    (pre ++ ({ tag with name := N } : TagText).print ++ b!">") ++ (m ++ (b!"</" ++ N ++ gap ++ b!">" ++ rest)) := by simp
  have l1 : (pre ++ tag.print ++ b!">").length = pre.length + tag.print.length + 1 := by
    simp only [List.length_append]; rfl
  have l2 : (pre ++ ({ tag with name := N } : TagText).print ++ b!">").length =
    pre.length + ({ tag with name := N } : TagText).print.length + 1 := by
    simp only [List.length_append]; rfl
  rw [e1] at a3 a5
  rw [e2] at a4 a6
  obtain ⟨q, q', s1, s2, b1, b2, b3, b4, b5, b6⟩ := middle_ren (μ := μ) (N := N) (P := pre.length) (G := False)
    (F := fun t => ¬ SameName u cs (some t) (some N)) hm (l1 ▸ a1) (l2 ▸ a2) a3 a4
    (fun o h => by rw [l1, l2, μ1 _ (by omega) (by omega)]; omega) (by rw [l1]; omega)
    (fun ts h => by rw [hts0] at h; cases h; exact hfree)
    (.inr ⟨fun t h h1 => h h1.symm, fun k h1 h2 h3 => by
      rw [a5] at h1
      rw [huniq k h1 h2, l1]
      omega⟩) (a7 _) (.inr a8) ⟨_, hts0⟩
  -- the end tags
  obtain ⟨s3, p2, p3, d1, d2, d3, d4, d5, d6, d7, d8, d9⟩ := b3.endTagStep (name := old) (gap := gap) (x := rest) b1
    (drop_two ..) ho hg
  obtain ⟨s4, p2', p3', d1', d2', d3', d4', d5', d6', d7', d8', d9'⟩ := b4.endTagStep (name := N) (gap := gap) (x := rest) b2
    (drop_two ..) hN.1 hg
  rw [l1, ← hEd] at d1 d5 d8
  rw [l2] at d1' d5' d8'
  have hNY := b6.resolve_left id
  have hhit : Hit pre.length u cs p2.endTagName p2.cur p2.parents := by
    refine Classical.byContradiction fun hno => ?_
    have hNY' : NoneYet pre.length p2 := by unfold NoneYet; rw [d3, d4]; exact hNY
    have hNY'' := hNY'.step d9 (fun h => by rw [d7] at h; rcases h with h | h <;> cases h) (fun _ => hno)
    have hfin := (finishAll_finished (len := ((pre ++ tag.print ++ b!">") ++ (m ++ (b!"</" ++ old ++ gap ++ b!">" ++ rest))).length) n hcl).1
      (by rw [a5]; exact hin)
    rcases d2.later (a := E + (old.length + gap.length + 3)) ⟨fun h => (by rw [d1.state] at h; cases h), fun h => (by rw [d1.state] at h; cases h)⟩
      (by rw [d1.pos]; omega) (by
        rw [d1.pos]
        simp only [parserCfg, List.length_append, List.length_cons, List.length_nil]
        omega) hfin hcl (by omega) with h | ⟨e, h1, h2⟩
    · exact hNY'' n h hs hcl
    · rw [hE] at h1; cases h1; omega
  have b5' : RN pre.length N μ False (fun t => ¬ SameName u cs (some t) (some N)) (p2.cur :: p2.parents) (p2'.cur :: p2'.parents) := by
    rw [d3, d4, d3', d4']; exact b5
  have hR := endTag_ren (E := E) (c := parserCfg u cs ((pre ++ tag.print ++ b!">") ++ (m ++ (b!"</" ++ old ++ gap ++ b!">" ++ rest))))
    (c' := parserCfg u cs ((pre ++ ({ tag with name := N } : TagText).print ++ b!">") ++ (m ++ (b!"</" ++ N ++ gap ++ b!">" ++ rest))))
    b5' rfl rfl hhit (fun t h h1 => h h1.symm) d5
    (by rw [d5', μ1 _ (by omega) (by omega)]; congr 1; omega) d6' d7 d7' (by rw [d8, d8', μ2 _ (by omega)]; omega) d9 d9'
  -- the rest
  have e3 : (pre ++ tag.print ++ b!">") ++ (m ++ (b!"</" ++ old ++ gap ++ b!">" ++ rest)) =
    (pre ++ tag.print ++ b!">" ++ m ++ b!"</" ++ old ++ gap ++ b!">") ++ rest := by simp
  have e4 : (pre ++ ({ tag with name := N } : TagText).print ++ b!">") ++ (m ++ (b!"</" ++ N ++ gap ++ b!">" ++ rest)) =
    (pre ++ ({ tag with name := N } : TagText).print ++ b!">" ++ m ++ b!"</" ++ N ++ gap ++ b!">") ++ rest := by simp
  have l3 : (pre ++ tag.print ++ b!">" ++ m ++ b!"</" ++ old ++ gap ++ b!">").length = E + (old.length + gap.length + 3) := by
    simp only [List.length_append, List.length_cons, List.length_nil]; omega
  have l4 : (pre ++ ({ tag with name := N } : TagText).print ++ b!">" ++ m ++ b!"</" ++ N ++ gap ++ b!">").length =
      pre.length + ({ tag with name := N } : TagText).print.length + 1 + m.length + (N.length + gap.length + 3) := by
    simp only [List.length_append, List.length_cons, List.length_nil]; omega
  rw [e3] at d2 a5
  rw [e4] at d2' a6
  have := rest_ren (μ := μ) (l3 ▸ d1) (l4 ▸ d1') d2 d2' (fun o h => by rw [l3, l4, μ2 _ (by omega)]; omega) (by rw [l3]; omega)
    (fun _ _ _ _ _ _ => trivial) (.inl trivial) hR (.inl trivial)
  rw [a5, a6] at this
  exact this

/-- The element has no end tag and stays open. -/
theorem parse_renamed_open {pre rest : Str} {tag : TagText} {nx ny : List Node} {n : Node}
    (hpre : EndsInContent u cs pre) (hn : LegalName tag.name) (hN : LegalName N) (hl : tag.Legal)
    (hv : tag.name ∉ void) (hv' : N ∉ void) (hf : NameFree u cs rest N)
    (hx : parse u cs void (pre ++ tag.print ++ b!">" ++ rest) = .ok nx)
    (hz : parse u cs void (pre ++ ({ tag with name := N } : TagText).print ++ b!">" ++ rest) = .ok ny)
    (hin : InForest nx n) (hs : n.start = pre.length) (hE : n.closed = false) :
    ny = renamedAll pre.length N (moved pre.length tag.name.length N.length) nx := by
  obtain ⟨ts0, hts0, hfree⟩ := hf
  have hpl := print_length tag N
  obtain ⟨μ, hμ⟩ : ∃ μ, μ = moved pre.length tag.name.length N.length := ⟨_, rfl⟩
  rw [← hμ]
  have μ0 : ∀ o, o ≤ pre.length → μ o = o := fun o h => by rw [hμ]; exact if_pos h
  have μ1 : ∀ o, pre.length < o → μ o = o + N.length - tag.name.length := fun o h => by
    rw [hμ]; unfold moved; rw [if_neg (by omega)]; try omega
  have huniq : ∀ k, InForest nx k → k.start = pre.length → k = n := fun k h1 h2 => start_unique hx h1 hin (h2.trans hs.symm)
  have e1 : pre ++ tag.print ++ b!">" ++ rest = pre ++ tag.print ++ 62 :: rest := by simp
  have e2 : pre ++ ({ tag with name := N } : TagText).print ++ b!">" ++ rest =
    pre ++ ({ tag with name := N } : TagText).print ++ 62 :: rest := by simp
  rw [e1] at hx
  rw [e2] at hz
  obtain ⟨sA, sB, p, p', rx, ry, a1, a2, a3, a4, a5, a6, a7, a8⟩ :=
    start_open hpre hn hN hl hv hv' μ0 (fun o h1 h2 => μ1 o h1) hx hz
  have l1 : (pre ++ tag.print ++ b!">").length = pre.length + tag.print.length + 1 := by
    simp only [List.length_append]; rfl
  have l2 : (pre ++ ({ tag with name := N } : TagText).print ++ b!">").length =
    pre.length + ({ tag with name := N } : TagText).print.length + 1 := by
    simp only [List.length_append]; rfl
  rw [← e1] at a3 a5
  rw [← e2] at a4 a6
  have := rest_ren (μ := μ) (N := N) (P := pre.length) (G := False) (F := fun t => ¬ SameName u cs (some t) (some N))
    (l1 ▸ a1) (l2 ▸ a2) a3 a4 (fun o h => by rw [l1, l2, μ1 _ (by omega)]; omega) (by rw [l1]; omega)
    (fun ts s2 hr t ht => hfree t (hr.among hts0 t ht))
    (.inr ⟨fun t h h1 => h h1.symm, fun k h1 h2 h3 => by
      rw [a5] at h1
      rw [huniq k h1 h2, hE] at h3
      cases h3⟩) (a7 _) (.inr a8)
  rw [a5, a6] at this
  exact this

/-- The start tag is the whole element. -/
theorem parse_renamed_tag {pre w rest : Str} {tag : TagText} {nx ny : List Node}
    (hpre : EndsInContent u cs pre) (hn : LegalName tag.name) (hN : LegalName N) (hl : tag.Legal)
    (hw : (w = b!">" ∧ tag.name ∈ void ∧ N ∈ void) ∨ (w = b!"/>" ∧ SlashFree tag))
    (hx : parse u cs void (pre ++ tag.print ++ w ++ rest) = .ok nx)
    (hz : parse u cs void (pre ++ ({ tag with name := N } : TagText).print ++ w ++ rest) = .ok ny) :
    ny = renamedAll pre.length N (moved pre.length tag.name.length N.length) nx := by
  have hpl := print_length tag N
  obtain ⟨μ, hμ⟩ : ∃ μ, μ = moved pre.length tag.name.length N.length := ⟨_, rfl⟩
  rw [← hμ]
  have μ0 : ∀ o, o ≤ pre.length → μ o = o := fun o h => by rw [hμ]; exact if_pos h
  have μ1 : ∀ o, pre.length < o → μ o = o + N.length - tag.name.length := fun o h => by
    rw [hμ]; unfold moved; rw [if_neg (by omega)]; try omega
  have l0 : ∀ x : Str, (pre ++ x ++ w).length = pre.length + x.length + w.length := fun x => by
    simp only [List.length_append]
  obtain ⟨sA, sB, p, p', rx, ry, a1, a2, a3, a4, a5, a6, a7⟩ : ∃ (sA sB : Sc) (p p' rx ry : PState),
      InText sA (pre.length + tag.print.length + w.length) ∧
      InText sB (pre.length + ({ tag with name := N } : TagText).print.length + w.length) ∧
      Out (parserCfg u cs (pre ++ tag.print ++ w ++ rest)) void p sA rx ∧
      Out (parserCfg u cs (pre ++ ({ tag with name := N } : TagText).print ++ w ++ rest)) void p' sB ry ∧
      (finishAll (pre ++ tag.print ++ w ++ rest).length rx.cur rx.parents).children = nx ∧
      (finishAll (pre ++ ({ tag with name := N } : TagText).print ++ w ++ rest).length ry.cur ry.parents).children = ny ∧
      RN pre.length N μ True (fun _ => True) (p.cur :: p.parents) (p'.cur :: p'.parents) := by
    have node : ∀ e e0 e1 : Nat, μ e = e0 → renamed pre.length N μ { Node.new pre.length e1 [] with
          tag := some tag.name, attributes := tag.nodes pre.length, closed := true, stop := e, startTagEnd := some e } =
        { Node.new pre.length e1 [] with
          tag := some N, attributes := moveA μ (tag.nodes pre.length), closed := true, stop := e0, startTagEnd := some e0 } := by
      intro e e0 e1 he
      rw [renamed_eq]
      simp only [Node.new, if_true, List.map_nil, Option.map_some, Option.map_none, μ0 _ (Nat.le_refl _), he]
    rcases hw with ⟨rfl, hv, hv'⟩ | ⟨rfl, hf⟩
    · have e1 : ∀ x : Str, pre ++ x ++ b!">" ++ rest = pre ++ x ++ 62 :: rest := fun x => by simp
      rw [e1] at hx
      rw [e1] at hz
      obtain ⟨s1, s1', p1, p1', q, q', rx, ry, sp, sp', ty, ty', hs1, hs1', g1, g1', h6, h7, hp1, hp1', hin, hR, hc1, hc1'⟩ :=
        start_pre hpre hn.1 hN.1 hl (.inl rfl) μ0 (fun o h1 h2 => μ1 o h1) hx hz
      obtain ⟨s2, p2, hs2, hst2, g2, hx2⟩ := g1.close (x := rest) hs1 (drop_two pre tag.print (62 :: rest) ▸ by simp [parserCfg]) (by rw [hp1]; simp)
      obtain ⟨s2', p2', hs2', hst2', g2', hx2'⟩ := g1'.close (x := rest) hs1' (drop_two pre ({ tag with name := N } : TagText).print (62 :: rest) ▸ by simp [parserCfg]) (by rw [hp1']; simp)
      rw [afterStartTag_html hs1 (.inl hn)] at hst2
      rw [afterStartTag_html (tag := { tag with name := N }) hs1' (.inl hN)] at hst2'
      rw [hc1] at hx2
      rw [hc1'] at hx2'
      simp only [Option.any_some] at hx2 hx2'
      rw [if_pos (by simpa using hv)] at hx2
      rw [if_pos (by simpa using hv')] at hx2'
      simp only [PState.pop, hp1, hp1'] at hx2 hx2'
      cases hx2; cases hx2'
      rw [e1, e1]
      refine ⟨s2, s2', _, _, rx, ry, ⟨hst2, hs2⟩, ⟨hst2', hs2'⟩, g2, g2', h6, h7, ?_⟩
      have h0 := (hR True fun _ => True).add (n := { Node.new pre.length (pre ++ tag.print ++ 62 :: rest).length [] with
          tag := some tag.name, attributes := tag.nodes pre.length, closed := true,
          stop := pre.length + tag.print.length + 1, startTagEnd := some (pre.length + tag.print.length + 1) })
      rw [node _ (pre.length + ({ tag with name := N } : TagText).print.length + 1) _ (by rw [μ1 _ (by omega)]; omega)] at h0
      exact h0
    · have e1 : ∀ x : Str, pre ++ x ++ b!"/>" ++ rest = pre ++ x ++ 47 :: 62 :: rest := fun x => by simp
      rw [e1] at hx
      rw [e1] at hz
      obtain ⟨s1, s1', p1, p1', q, q', rx, ry, sp, sp', ty, ty', hs1, hs1', g1, g1', h6, h7, hp1, hp1', hin, hR, hc1, hc1'⟩ :=
        start_pre hpre hn.1 hN.1 hl (.inr ⟨rfl, hf⟩) μ0 (fun o h1 h2 => μ1 o h1) hx hz
      obtain ⟨s2, p2, hs2, g2, hx2⟩ := g1.selfClose (x := rest) hs1 (drop_two pre tag.print (47 :: 62 :: rest) ▸ by simp [parserCfg]) (by rw [hp1]; simp)
      obtain ⟨s2', p2', hs2', g2', hx2'⟩ := g1'.selfClose (x := rest) hs1' (drop_two pre ({ tag with name := N } : TagText).print (47 :: 62 :: rest) ▸ by simp [parserCfg]) (by rw [hp1']; simp)
      rw [hc1] at hx2
      rw [hc1'] at hx2'
      simp only [PState.pop, hp1, hp1'] at hx2 hx2'
      cases hx2; cases hx2'
      rw [e1, e1]
      refine ⟨s2, s2', _, _, rx, ry, hs2, hs2', g2, g2', h6, h7, ?_⟩
      have h0 := (hR True fun _ => True).add (n := { Node.new pre.length (pre ++ tag.print ++ 47 :: 62 :: rest).length [] with
          tag := some tag.name, attributes := tag.nodes pre.length, closed := true,
          stop := pre.length + tag.print.length + 2, startTagEnd := some (pre.length + tag.print.length + 2) })
      rw [node _ (pre.length + ({ tag with name := N } : TagText).print.length + 2) _ (by rw [μ1 _ (by omega)]; omega)] at h0
      exact h0
  have hwl : 1 ≤ w.length := by rcases hw with ⟨rfl, _⟩ | ⟨rfl, _⟩ <;> decide
  have := rest_ren (μ := μ) (N := N) (P := pre.length)
    (l0 tag.print ▸ a1) (l0 ({ tag with name := N } : TagText).print ▸ a2) a3 a4
    (fun o h => by rw [l0, l0, μ1 _ (by omega)]; omega) (by rw [l0]; omega)
    (fun _ _ _ _ _ _ => trivial) (.inl trivial) a7 (.inl trivial)
  rw [a5, a6] at this
  exact this

end Html
