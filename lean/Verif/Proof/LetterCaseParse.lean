import Verif.Proof.LetterCaseScan

/-!
# The parser on two texts that differ in letter case only
-/

namespace Html
open Spec

theorem skeleton_eq (n : Node) : skeleton n = ⟨n.tag.map asciiLower, n.start, n.stop, skeletons n.children, n.closed,
    n.startTagEnd, n.endTagStart, []⟩ := by
  cases n
  rfl

theorem skeletons_append (a b : List Node) : skeletons (a ++ b) = skeletons a ++ skeletons b := by
  induction a with
  | nil => rfl
  | cons n a ih => show skeleton n :: skeletons (a ++ b) = _; rw [ih]; rfl

/-- Two nodes of the same skeleton that are both void or both not. -/
structure NA (void : List Str) (n n' : Node) : Prop where
  tag : n'.tag.map asciiLower = n.tag.map asciiLower
  start : n'.start = n.start
  stop : n'.stop = n.stop
  kids : skeletons n'.children = skeletons n.children
  closed : n'.closed = n.closed
  ste : n'.startTagEnd = n.startTagEnd
  ets : n'.endTagStart = n.endTagStart
  void : n'.tag.any (fun t => void.contains t) = n.tag.any (fun t => void.contains t)

theorem NA.skeleton {void : List Str} {n n' : Node} (h : NA void n n') : Spec.skeleton n' = Spec.skeleton n := by
  rw [skeleton_eq, skeleton_eq, h.tag, h.start, h.stop, h.kids, h.closed, h.ste, h.ets]

theorem NA.addChild {void : List Str} {q q' n n' : Node} (hq : NA void q q') (h : NA void n n') :
    NA void (q.addChild n) (q'.addChild n') := by
  refine ⟨hq.tag, hq.start, hq.stop, ?_, hq.closed, hq.ste, hq.ets, hq.void⟩
  show skeletons (q'.children ++ [n']) = skeletons (q.children ++ [n])
  rw [skeletons_append, skeletons_append, hq.kids]
  show _ ++ [Spec.skeleton n'] = _ ++ [Spec.skeleton n]
  rw [h.skeleton]

/-- The same for lists. -/
def AllNA (void : List Str) : List Node → List Node → Prop
  | [], [] => True
  | n :: ns, n' :: ns' => NA void n n' ∧ AllNA void ns ns'
  | _, _ => False

/-- Two parsers in the same situation. -/
structure PA (void : List Str) (p p' : PState) : Prop where
  cur : NA void p.cur p'.cur
  parents : AllNA void p.parents p'.parents
  ets : p'.endTagStart = p.endTagStart
  etn : p'.endTagName = p.endTagName

theorem AllNA.length {void : List Str} {a b : List Node} (h : AllNA void a b) : b.length = a.length := by
  induction a generalizing b with
  | nil => cases b with
    | nil => rfl
    | cons => exact h.elim
  | cons n a ih => cases b with
    | nil => exact h.elim
    | cons n' b => rw [List.length_cons, List.length_cons, ih h.2]

/-- If the one parser goes on so does the other, or it panics, but not because of a slice. -/
def PR (void : List Str) : R PState → R PState → Prop
  | .ok q, .ok q' => PA void q q'
  | .ok _, .error e => e ≠ .slice
  | .error _, _ => True

theorem PA.pop {void : List Str} {p p' : PState} (h : PA void p p') : PR void p.pop p'.pop := by
  unfold PState.pop
  have hp := h.parents
  cases h1 : p.parents with
  | nil => exact trivial
  | cons q qs =>
    rw [h1] at hp
    cases h2 : p'.parents with
    | nil => rw [h2] at hp; exact hp.elim
    | cons q' qs' =>
      rw [h2] at hp
      exact ⟨hp.1.addChild h.cur, hp.2, h.ets, h.etn⟩

theorem PA.matchDepth {u : Uni} (hu : LowersLetters u) {void : List Str} (name : Option Str) {n n' : Node}
    {l l' : List Node} (hn : NA void n n') (hl : AllNA void l l') :
    matchDepth u false name n' l' = matchDepth u false name n l := by
  induction l generalizing n n' l' with
  | nil => cases l' with
    | nil => rfl
    | cons => exact hl.elim
  | cons q qs ih =>
    cases l' with
    | nil => exact hl.elim
    | cons q' qs' =>
      have hs : n'.isSameTag u name false = n.isSameTag u name false := by
        have ht := hn.tag
        unfold Node.isSameTag
        cases h1 : n.tag with
        | none =>
          rw [h1] at ht
          cases h2 : n'.tag with
          | none => rfl
          | some t => rw [h2] at ht; cases ht
        | some t =>
          rw [h1] at ht
          cases h2 : n'.tag with
          | none => rw [h2] at ht; cases ht
          | some t' =>
            rw [h2] at ht
            simp only [Option.map_some, Option.some.injEq] at ht
            have := same_toLower hu (show SameLetters t' t from ht)
            simp only [Bool.false_eq_true, if_false, this]
      unfold Html.matchDepth
      rw [hs, ih hl.1 hl.2, List.length_cons, List.length_cons, hl.2.length]

theorem PR.bind {void : List Str} {r r' : R PState} {f g : PState → R PState} (h : PR void r r')
    (hf : ∀ q q', PA void q q' → PR void (f q) (g q')) : PR void (r >>= f) (r' >>= g) := by
  cases r with
  | error e => exact trivial
  | ok q => cases r' with
    | ok q' => exact hf q q' h
    | error e =>
      show PR void (f q) (.error e)
      cases f q with
      | error e' => exact trivial
      | ok q1 => exact h

theorem PA.popUnclosed {void : List Str} (k : Nat) {p p' : PState} (h : PA void p p') :
    PR void (popUnclosed k p) (popUnclosed k p') := by
  induction k generalizing p p' with
  | zero => exact h
  | succ k ih =>
    unfold Html.popUnclosed
    cases he : p.endTagStart with
    | none => exact trivial
    | some e =>
      rw [h.ets, he]
      exact PR.bind (PA.pop ⟨⟨h.cur.tag, h.cur.start, rfl, h.cur.kids, rfl, h.cur.ste, h.cur.ets, h.cur.void⟩,
        h.parents, rfl, h.etn⟩) (fun q q' hq => ih hq)

theorem attrSetValue_error {m : List (Str × Attr)} {k v : Str} {e : Panic} (h : attrSetValue m k v = .error e) :
    e ≠ .slice := by
  induction m with
  | nil => cases h; decide
  | cons a m ih =>
    unfold attrSetValue at h
    split at h
    · cases h
    · rcases bind_err h with h | ⟨_, _, h⟩
      · exact ih h
      · cases h

/-- A change of the attributes. -/
theorem PA.attr {void : List Str} {p p' : PState} (h : PA void p p') (a a' : List (Str × Attr)) (x x' : Option Str) :
    PA void { p with cur := { p.cur with attributes := a }, pending := x }
      { p' with cur := { p'.cur with attributes := a' }, pending := x' } :=
  ⟨⟨h.cur.tag, h.cur.start, h.cur.stop, h.cur.kids, h.cur.closed, h.cur.ste, h.cur.ets, h.cur.void⟩, h.parents, h.ets,
    h.etn⟩

theorem PA.setValue {void : List Str} {p p' : PState} (h : PA void p p') (x x' : Option Str) (v v' : Str)
    (f : PState → PState) (hf : ∀ p, f p = { p with pending := (f p).pending }) :
    PR void (match x with
      | some a => (attrSetValue p.cur.attributes a v >>= fun m => .ok (f { p with cur := { p.cur with attributes := m } }))
      | none => .ok p)
    (match x' with
      | some a => (attrSetValue p'.cur.attributes a v' >>= fun m =>
          .ok (f { p' with cur := { p'.cur with attributes := m } }))
      | none => .ok p') := by
  have key : ∀ q q', PA void q q' → PA void (f q) q' ∧ PA void q (f q') ∧ PA void (f q) (f q') := by
    intro q q' hq
    rw [hf q, hf q']
    exact ⟨⟨hq.cur, hq.parents, hq.ets, hq.etn⟩, ⟨hq.cur, hq.parents, hq.ets, hq.etn⟩,
      ⟨hq.cur, hq.parents, hq.ets, hq.etn⟩⟩
  cases x with
  | none =>
    cases x' with
    | none => exact h
    | some a' =>
      simp only
      cases h2 : attrSetValue p'.cur.attributes a' v' with
      | error e => exact attrSetValue_error h2
      | ok m' =>
        exact (key p { p' with cur := { p'.cur with attributes := m' } } ⟨⟨h.cur.tag, h.cur.start, h.cur.stop, h.cur.kids,
          h.cur.closed, h.cur.ste, h.cur.ets, h.cur.void⟩, h.parents, h.ets, h.etn⟩).2.1
  | some a =>
    simp only
    cases h1 : attrSetValue p.cur.attributes a v with
    | error e => exact trivial
    | ok m =>
      cases x' with
      | none =>
        exact (key { p with cur := { p.cur with attributes := m } } p' ⟨⟨h.cur.tag, h.cur.start, h.cur.stop, h.cur.kids,
          h.cur.closed, h.cur.ste, h.cur.ets, h.cur.void⟩, h.parents, h.ets, h.etn⟩).1
      | some a' =>
        simp only
        cases h2 : attrSetValue p'.cur.attributes a' v' with
        | error e => exact attrSetValue_error h2
        | ok m' => exact (key _ _ (h.attr m m' p.pending p'.pending)).2.2

/-- The two texts of a start tag's name are both void or both not. -/
def VoidAlike (void : List Str) (c c' : Cfg) (t : Tok) : Prop :=
  t.type = .StartTag →
    void.contains (bytesIn c'.src t.offset t.stop) = void.contains (bytesIn c.src t.offset t.stop)

theorem slice_bytes {a x : Str} {i j : Nat} (h : sliceStr a i j = .ok x) : x = bytesIn a i j := by
  unfold sliceStr at h
  split at h
  · injection h with h
    exact h.symm
  · cases h

theorem alike_parseStep {c c' : Cfg} (h : Alike c c') {void : List Str} {p p' : PState} (hp : PA void p p') (s : Sc)
    (l : Option Str) (hv : VoidAlike void c c' s.tok) :
    PR void (parseStep c void p s) (parseStep c' void p' (ty s l)) := by
  have htt : (ty s l).tokenType = s.tokenType := rfl
  have htx : (∃ x y, tokenText c s = .ok x ∧ tokenText c' (ty s l) = .ok y ∧ SameLetters x y) ∨
      (tokenText c s = .error .slice ∧ tokenText c' (ty s l) = .error .slice) := same_slice h.src s.tokenOffset s.pos
  have hpe : p'.parents.isEmpty = p.parents.isEmpty := by
    have hl := hp.parents.length
    revert hl
    cases p.parents <;> cases p'.parents <;> simp
  unfold parseStep
  rw [htt]
  cases ht : s.tokenType <;> try exact hp
  case StartTagOpen =>
    simp only
    refine ⟨⟨rfl, rfl, (same_length h.src).symm, rfl, rfl, rfl, rfl, rfl⟩, ⟨hp.cur, hp.parents⟩, hp.ets, hp.etn⟩
  case StartTag =>
    simp only
    rcases htx with ⟨x, y, h1, h2, h3⟩ | ⟨h1, h2⟩
    · rw [h1, h2]
      have e1 := slice_bytes h1
      have e2 := slice_bytes h2
      refine ⟨⟨congrArg some h3.symm, hp.cur.start, hp.cur.stop, hp.cur.kids, hp.cur.closed, hp.cur.ste, hp.cur.ets, ?_⟩,
        hp.parents, hp.ets, hp.etn⟩
      show void.contains y = void.contains x
      rw [e1, e2]
      exact hv ht
    · rw [h1]; exact trivial
  case StartTagClose =>
    simp only [hpe]
    have hlen : (ty s l).tokenLength = s.tokenLength := rfl
    have hvd := hp.cur.void
    rw [hlen]
    split
    · exact hp
    · split
      · show PR void (if p.cur.tag.any (fun t => void.contains t) = true then _ else _)
          (if p'.cur.tag.any (fun t => void.contains t) = true then _ else _)
        rw [hvd]
        split
        · exact PA.pop ⟨⟨hp.cur.tag, hp.cur.start, rfl, hp.cur.kids, rfl, rfl, hp.cur.ets, hp.cur.void⟩, hp.parents,
            hp.ets, hp.etn⟩
        · exact ⟨⟨hp.cur.tag, hp.cur.start, rfl, hp.cur.kids, hp.cur.closed, rfl, hp.cur.ets, hp.cur.void⟩, hp.parents,
            hp.ets, hp.etn⟩
      · exact PA.pop ⟨⟨hp.cur.tag, hp.cur.start, rfl, hp.cur.kids, hp.cur.closed, hp.cur.ste, hp.cur.ets, hp.cur.void⟩,
          hp.parents, hp.ets, hp.etn⟩
  case StartTagSelfClose =>
    simp only [hpe]
    split
    · exact hp
    · exact PA.pop ⟨⟨hp.cur.tag, hp.cur.start, rfl, hp.cur.kids, rfl, rfl, hp.cur.ets, hp.cur.void⟩, hp.parents, hp.ets, hp.etn⟩
  case EndTagOpen => exact ⟨hp.cur, hp.parents, rfl, rfl⟩
  case EndTag =>
    simp only
    rcases htx with ⟨x, y, h1, h2, h3⟩ | ⟨h1, h2⟩
    · rw [h1, h2]
      refine ⟨hp.cur, hp.parents, hp.ets, ?_⟩
      show some (if c'.caseSensitive then y else toLower c'.uni y) = some (if c.caseSensitive then x else toLower c.uni x)
      rw [h.cs, h.cs', h.uni, same_toLower h.low h3]
      rfl
    · rw [h1]; exact trivial
  case EndTagClose =>
    simp only [h.cs, h.cs', h.uni, hp.etn]
    rw [PA.matchDepth h.low p.endTagName hp.cur hp.parents, hp.parents.length]
    split
    · exact PR.bind (hp.popUnclosed _) fun q q' hq => PA.pop ⟨⟨hq.cur.tag, hq.cur.start, rfl, hq.cur.kids, rfl, hq.cur.ste,
        hq.ets, hq.cur.void⟩, hq.parents, hq.ets, hq.etn⟩
    · exact hp
  case AttributeName =>
    simp only
    rcases htx with ⟨x, y, h1, h2, h3⟩ | ⟨h1, h2⟩
    · rw [h1, h2]
      exact hp.attr _ _ _ _
    · rw [h1]; exact trivial
  case DelimiterAssign => exact hp.setValue _ _ _ _ id (fun _ => rfl)
  case AttributeValue =>
    simp only
    rcases htx with ⟨x, y, h1, h2, h3⟩ | ⟨h1, h2⟩
    · rw [h1, h2]
      exact hp.setValue _ _ _ _ (fun p => { p with pending := none }) (fun _ => rfl)
    · rw [h1]; exact trivial

theorem alike_parseLoop {c c' : Cfg} (h : Alike c c') {void : List Str} (f : Nat) {p p' : PState} (hp : PA void p p')
    (s : Sc) (l : Option Str) (hl : s.lastType.isSome = l.isSome) (ts : List Tok) (ht : tokensF c f s = .ok ts)
    (hv : ∀ t ∈ ts, VoidAlike void c c' t) :
    PR void (parseLoop c void f p s) (parseLoop c' void f p' (ty s l)) := by
  induction f generalizing p p' s l ts with
  | zero => exact trivial
  | succ f ih =>
    unfold parseLoop
    unfold tokensF at ht
    obtain ⟨s1, hs1, ht⟩ := bind_ok ht
    have hs := alike_scan h s l hl
    rw [hs1] at hs ⊢
    cases h2 : scan c' (ty s l) with
    | error e => rw [h2] at hs; exact hs.elim
    | ok s' =>
      rw [h2] at hs
      obtain ⟨l1, rfl, hl1⟩ := hs
      show PR void (if s1.tokenType = .EOS then _ else _) (if s1.tokenType = .EOS then _ else _)
      split at ht
      · rename_i he
        rw [if_pos he, if_pos he]
        exact hp
      · rename_i he
        rw [if_neg he, if_neg he]
        obtain ⟨ts1, ht1, ht⟩ := bind_ok ht
        injection ht with ht
        subst ht
        exact PR.bind (alike_parseStep h hp s1 l1 (hv _ List.mem_cons_self)) fun q q' hq =>
          ih hq s1 l1 hl1 ts1 ht1 (fun t ht => hv t (List.mem_cons_of_mem _ ht))

theorem NA.finishAll {void : List Str} (len : Nat) {n n' : Node} {l l' : List Node} (hn : NA void n n')
    (hl : AllNA void l l') : NA void (finishAll len n l) (finishAll len n' l') := by
  induction l generalizing n n' l' with
  | nil => cases l' with
    | nil => exact hn
    | cons => exact hl.elim
  | cons q qs ih =>
    cases l' with
    | nil => exact hl.elim
    | cons q' qs' =>
      have h1 : NA void ({ n with stop := len, closed := false } : Node) ({ n' with stop := len, closed := false } : Node) :=
        ⟨hn.tag, hn.start, rfl, hn.kids, rfl, hn.ste, hn.ets, hn.void⟩
      have := ih (hl.1.addChild h1) hl.2
      exact this

end Html
