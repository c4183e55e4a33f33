import Verif.Model.Service
import Verif.Proof.Run
import Verif.Proof.ParseConcat

/-!
# No loop runs out of iterations

The loops of the model are bounded by a number of iterations (`fuel`).  Here it is shown for every function of the model that
the bound is never reached, for all texts, trees and positions.
-/

namespace Html
open Spec

/-- The answer is not that the iterations were used up. -/
def InTime {α : Type} (r : R α) : Prop := r ≠ .error .fuel

theorem rt_ok {α : Type} (x : α) : InTime (.ok x : R α) := fun h => nomatch h
theorem rt_pure {α : Type} (x : α) : InTime (pure x : R α) := fun h => nomatch h
theorem rt_err {α : Type} {e : Panic} (h : e ≠ .fuel) : InTime (.error e : R α) := fun h' => h (Except.error.inj h')

theorem rt_bind {α β : Type} {r : R α} {f : α → R β} (h : InTime r) (hf : ∀ x, r = .ok x → InTime (f x)) : InTime (r >>= f) := by
  cases r with
  | error e => exact fun h' => h (by cases h'; rfl)
  | ok x => exact hf x rfl

theorem rt_map {α β : Type} {r : R α} {f : α → β} (h : InTime r) : InTime (f <$> r) := by
  cases r with
  | error e => exact fun h' => h (by cases h'; rfl)
  | ok x => exact rt_ok _

theorem rt_emap {α β : Type} {r : R α} {f : α → β} (h : InTime r) : InTime (r.map f) := rt_map h

theorem rt_mapM {α β : Type} {f : α → R β} (l : List α) (h : ∀ x, InTime (f x)) : InTime (l.mapM f) := by
  induction l with
  | nil => exact rt_ok _
  | cons a l ih =>
    rw [List.mapM_cons]
    exact rt_bind (h a) fun x _ => rt_bind ih fun _ _ => rt_ok _

theorem rt_slice (s : Str) (a b : Nat) : InTime (sliceStr s a b) := by
  unfold sliceStr
  split
  · exact rt_ok _
  · exact rt_err (by decide)

theorem rt_unwrap {α : Type} (x : Option α) : InTime (unwrap x) := by
  cases x
  · exact rt_err (by decide)
  · exact rt_ok _

theorem rt_sub (a b : Nat) : InTime (subU a b) := by
  unfold subU
  split
  · exact rt_ok _
  · exact rt_err (by decide)

theorem rt_scan (c : Cfg) (s : Sc) : InTime (scan c s) := fun h => nomatch scan_err h

theorem rt_text (c : Cfg) (s : Sc) : InTime (tokenText c s) := rt_slice _ _ _

/-- Steps of the following proofs; every function adds one. -/
syntax "rt1" : tactic
macro_rules | `(tactic| rt1) => `(tactic| with_reducible exact rt_ok _)
macro_rules | `(tactic| rt1) => `(tactic| with_reducible exact rt_pure _)
macro_rules | `(tactic| rt1) => `(tactic| with_reducible exact rt_err (by decide))
macro_rules | `(tactic| rt1) => `(tactic| with_reducible exact rt_slice _ _ _)
macro_rules | `(tactic| rt1) => `(tactic| with_reducible exact rt_unwrap _)
macro_rules | `(tactic| rt1) => `(tactic| with_reducible exact rt_sub _ _)
macro_rules | `(tactic| rt1) => `(tactic| with_reducible exact rt_scan _ _)
macro_rules | `(tactic| rt1) => `(tactic| with_reducible exact rt_text _ _)
macro_rules | `(tactic| rt1) => `(tactic| with_reducible refine rt_bind ?_ (fun _ _ => ?_))
macro_rules | `(tactic| rt1) => `(tactic| with_reducible refine rt_map ?_)
macro_rules | `(tactic| rt1) => `(tactic| with_reducible refine rt_emap ?_)
macro_rules | `(tactic| rt1) => `(tactic| split)

/-- All of a function without loops. -/
macro "rt" : tactic => `(tactic| (try dsimp only) <;> repeat' (first | assumption | rt1 | (dsimp only)))

/-! ### Parser -/

theorem rt_attrSetValue (m : List (Str × Attr)) (k v : Str) : InTime (attrSetValue m k v) := by
  induction m with
  | nil => exact rt_err (by decide)
  | cons x m ih =>
    obtain ⟨k', v'⟩ := x
    unfold attrSetValue
    rt
macro_rules | `(tactic| rt1) => `(tactic| with_reducible exact rt_attrSetValue _ _ _)

theorem rt_pop (p : PState) : InTime p.pop := by
  unfold PState.pop
  rt
macro_rules | `(tactic| rt1) => `(tactic| with_reducible exact rt_pop _)

theorem rt_popUnclosed (k : Nat) (p : PState) : InTime (popUnclosed k p) := by
  induction k generalizing p with
  | zero => exact rt_ok _
  | succ k ih =>
    unfold popUnclosed
    rt
    all_goals exact ih _
macro_rules | `(tactic| rt1) => `(tactic| with_reducible exact rt_popUnclosed _ _)

theorem rt_parseStep (c : Cfg) (void : List Str) (p : PState) (s : Sc) : InTime (parseStep c void p s) := by
  unfold parseStep
  rt

theorem mu_start (c : Cfg) (o : Nat) : mu c (.new o .WithinContent) ≤ 2 * c.src.length - 1 := by
  unfold mu Sc.new
  simp only [if_true]
  omega

theorem mu_any (c : Cfg) (s : Sc) : mu c s ≤ 2 * c.src.length := by
  unfold mu
  split <;> omega

theorem rt_parseLoop (c : Cfg) (void : List Str) (f : Nat) (p : PState) (s : Sc) (hf : mu c s < f) : InTime (parseLoop c void f p s) := by
  induction f generalizing p s with
  | zero => omega
  | succ f ih =>
    unfold parseLoop
    refine rt_bind (rt_scan _ _) fun s1 h1 => ?_
    split
    · exact rt_ok _
    · rename_i hne
      have := (scan_step h1).mu_lt hne
      exact rt_bind (rt_parseStep _ _ _ _) fun q _ => ih q s1 (by omega)

theorem rt_parse (u : Uni) (cs : Bool) (void : List Str) (src : Str) : InTime (parse u cs void src) := by
  unfold parse
  refine rt_bind (rt_parseLoop _ _ _ _ _ ?_) fun _ _ => rt_ok _
  have := mu_start (parserCfg u cs src) 0
  have e : (parserCfg u cs src).src = src := rfl
  rw [e] at this
  omega
macro_rules | `(tactic| rt1) => `(tactic| with_reducible exact rt_parse _ _ _ _)

/-! ### Highlights, folding, selection ranges -/

theorem rt_scanTo (c : Cfg) (t : TT) (f : Nat) (s : Sc) (hf : mu c s < f) : InTime (scanTo c t f s) := by
  induction f generalizing s with
  | zero => omega
  | succ f ih =>
    unfold scanTo
    refine rt_bind (rt_scan _ _) fun s1 h1 => ?_
    split
    · exact rt_ok _
    · rename_i hne
      have := (scan_step h1).mu_lt fun h => hne (.inl h)
      exact ih s1 (by omega)

theorem rt_tagNameRange (u : Uni) (cs : Bool) (d : TextDoc) (t : TT) (o : Nat) : InTime (getTagNameRange u cs d t o) := by
  unfold getTagNameRange
  have := mu_start ⟨u, d.text, false, cs⟩ o
  refine rt_bind (rt_scanTo _ _ _ _ (by dsimp only at this ⊢; omega)) fun _ _ => ?_
  rt
macro_rules | `(tactic| rt1) => `(tactic| with_reducible exact rt_tagNameRange _ _ _ _ _)

theorem rt_highlights (u : Uni) (cs : Bool) (d : TextDoc) (p : Pos) (roots : List Node) :
    InTime (findDocumentHighlights u cs d p roots) := by
  unfold findDocumentHighlights
  rt

theorem rt_foldStep (u : Uni) (d : TextDoc) (void : List Str) (f : FoldState) (t : Tok) : InTime (foldStep u d void f t) := by
  unfold foldStep
  rt

theorem rt_foldLoop (c : Cfg) (d : TextDoc) (void : List Str) (f : Nat) (a : FoldState) (s : Sc) (hf : mu c s < f) :
    InTime (foldLoop c d void f a s) := by
  induction f generalizing a s with
  | zero => omega
  | succ f ih =>
    unfold foldLoop
    refine rt_bind (rt_scan _ _) fun s1 h1 => ?_
    split
    · exact rt_ok _
    · rename_i hne
      have := (scan_step h1).mu_lt hne
      exact rt_bind (rt_foldStep _ _ _ _ _) fun q _ => ih q s1 (by omega)

theorem rt_pickFolds (limit m n : Nat) (rs : List Fold) (ls : List Nat) : InTime (pickFolds limit m n rs ls) := by
  induction rs generalizing n ls with
  | nil => exact rt_ok _
  | cons r rs ih =>
    cases ls with
    | nil => exact rt_err (by decide)
    | cons l ls =>
      unfold pickFolds
      split
      · split
        · exact rt_bind (ih _ _) fun _ _ => rt_ok _
        · exact rt_bind (ih _ _) fun _ _ => rt_ok _
      · exact ih _ _

theorem rt_folding (u : Uni) (cs : Bool) (void : List Str) (d : TextDoc) (limit : Option Nat) :
    InTime (getFoldingRanges u cs void d limit) := by
  unfold getFoldingRanges
  have := mu_start ⟨u, d.text, false, cs⟩ 0
  refine rt_bind (rt_foldLoop _ _ _ _ _ _ (by dsimp only at this ⊢; omega)) fun _ _ => ?_
  split
  · exact rt_ok _
  · split
    · exact rt_pickFolds _ _ _ _ _
    · exact rt_ok _

theorem rt_content (d : TextDoc) (r : Range) : InTime (d.content r) := rt_slice _ _ _
macro_rules | `(tactic| rt1) => `(tactic| with_reducible exact rt_content _ _)

theorem rt_attrSelStep (src : Str) (rel : Nat) (a : AttrSel) (t : Tok) : InTime (attrSelStep src rel a t) := by
  unfold attrSelStep
  rt

theorem rt_attrSelLoop (c : Cfg) (rel f : Nat) (a : AttrSel) (s : Sc) (hf : mu c s < f) : InTime (attrSelLoop c rel f a s) := by
  induction f generalizing a s with
  | zero => omega
  | succ f ih =>
    unfold attrSelLoop
    refine rt_bind (rt_scan _ _) fun s1 h1 => ?_
    split
    · exact rt_ok _
    · rename_i hne
      have := (scan_step h1).mu_lt hne
      exact rt_bind (rt_attrSelStep _ _ _ _) fun q _ => ih q s1 (by omega)

theorem rt_attributeRanges (u : Uni) (cs : Bool) (d : TextDoc) (n : Node) (cur : Nat) : InTime (attributeRanges u cs d n cur) := by
  unfold attributeRanges
  refine rt_bind (rt_content _ _) fun text _ => rt_bind (rt_sub _ _) fun rel _ => ?_
  have := mu_start ⟨u, text, false, cs⟩ 0
  exact rt_bind (rt_attrSelLoop _ _ _ _ _ (by dsimp only at this ⊢; omega)) fun _ _ => rt_ok _
macro_rules | `(tactic| rt1) => `(tactic| with_reducible exact rt_attributeRanges _ _ _ _ _)

theorem rt_applicableRanges (u : Uni) (cs : Bool) (d : TextDoc) (roots : List Node) (p : Pos) :
    InTime (applicableRanges u cs d roots p) := by
  unfold applicableRanges voidRanges pairRanges
  rt
macro_rules | `(tactic| rt1) => `(tactic| with_reducible exact rt_applicableRanges _ _ _ _ _)

theorem rt_selection (u : Uni) (cs : Bool) (d : TextDoc) (roots : List Node) (ps : List Pos) :
    InTime (getSelectionRanges u cs d roots ps) := by
  unfold getSelectionRanges
  refine rt_mapM _ fun p => ?_
  unfold selectionRange
  rt

/-! ### Links -/

theorem rt_normalizeRef (url : Str) : InTime (normalizeRef url) := by
  unfold normalizeRef
  rt
macro_rules | `(tactic| rt1) => `(tactic| with_reducible exact rt_normalizeRef _)

theorem rt_dropQuery (l : UriLib) (s : Str) : InTime (dropQuery l s) := by
  unfold dropQuery
  rt
macro_rules | `(tactic| rt1) => `(tactic| with_reducible exact rt_dropQuery _ _)

theorem rt_cleanUri (l : UriLib) (s uri : Str) : InTime (cleanUri l s uri) := by
  unfold cleanUri
  rt
macro_rules | `(tactic| rt1) => `(tactic| with_reducible exact rt_cleanUri _ _ _)

section
variable {e : LinkEnv} (he : ∀ a b, InTime (e.resolve a b)) (d : TextDoc)
include he

theorem rt_workspaceUrl (v : Str) (b : Option Str) : InTime (workspaceUrl e v b) := by
  unfold workspaceUrl
  rt
  all_goals exact he _ _

theorem rt_createLink (v : Str) (a b : Nat) (base : Option Str) : InTime (createLink e d v a b base) := by
  unfold createLink linkStop
  have := rt_workspaceUrl he
  rt
  all_goals exact this _ _

theorem rt_linkStep (st : LinkState) (t : Tok) : InTime (linkStep e d st t) := by
  unfold linkStep linkPath linkId pathLinks pathBase newBase
  have := rt_createLink he d
  rt
  all_goals first | exact this _ _ _ _ | exact he _ _

theorem rt_linkLoop (c : Cfg) (f : Nat) (st : LinkState) (s : Sc) (hf : mu c s < f) : InTime (linkLoop e d c f st s) := by
  induction f generalizing st s with
  | zero => omega
  | succ f ih =>
    unfold linkLoop
    refine rt_bind (rt_scan _ _) fun s1 h1 => ?_
    split
    · exact rt_ok _
    · rename_i hne
      have := (scan_step h1).mu_lt hne
      exact rt_bind (rt_linkStep he d _ _) fun q _ => ih q s1 (by omega)

theorem rt_links : InTime (findDocumentLinks e d) := by
  unfold findDocumentLinks
  have := mu_start ⟨e.uni, d.text, false, e.caseSensitive⟩ 0
  refine rt_bind (rt_linkLoop he d _ _ _ _ (by dsimp only at this ⊢; omega)) fun st _ => rt_mapM _ fun l => ?_
  unfold finishLink
  rt
end

/-! ### Formatting -/

theorem rt_nodeWrap (o : FormatOptions) (src : Str) (l : Nat) (n : Node) (tag : Str) (s e : Nat) : InTime (nodeWrap o src l n tag s e) := by
  unfold nodeWrap
  rt
macro_rules | `(tactic| rt1) => `(tactic| with_reducible exact rt_nodeWrap _ _ _ _ _ _ _)

theorem rt_leafText (o : FormatOptions) (src : Str) (l : Nat) (w : Bool) (s e : Nat) (ch : List Node) : InTime (leafText o src l w s e ch) := by
  unfold leafText textOnly
  rt
macro_rules | `(tactic| rt1) => `(tactic| with_reducible exact rt_leafText _ _ _ _ _ _ _)

mutual
theorem rt_beautify (o : FormatOptions) (src : Str) : ∀ (l : Nat) (n : Node), InTime (n.beautify o src l)
  | l, ⟨tag, start, stop, children, closed, ste, ets, attrs⟩ => by
    unfold Node.beautify
    refine rt_bind (rt_unwrap _) fun tag _ => ?_
    cases ets with
    | none => exact rt_ok _
    | some e =>
      refine rt_bind (rt_unwrap _) fun s _ => rt_bind (rt_beautifyKids o src _ _ _ children) fun kids _ => ?_
      rt
theorem rt_beautifyKids (o : FormatOptions) (src : Str) : ∀ (l prev stop : Nat) (ch : List Node), InTime (Node.beautifyKids o src l prev stop ch)
  | _, _, _, [] => by unfold Node.beautifyKids; exact rt_ok _
  | l, _, _, [c] => by
    have := rt_beautify o src l c
    unfold Node.beautifyKids
    rt
  | l, _, stop, c :: d :: r => by
    have := rt_beautify o src l c
    have := rt_beautifyKids o src l c.stop stop (d :: r)
    unfold Node.beautifyKids
    rt
end
macro_rules | `(tactic| rt1) => `(tactic| with_reducible exact rt_beautify _ _ _ _)

theorem rt_beautifyRoots (o : FormatOptions) (src : Str) (l : List Node) : InTime (beautifyRoots o src l) := by
  induction l with
  | nil => exact rt_ok _
  | cons n l ih =>
    unfold beautifyRoots
    rt
macro_rules | `(tactic| rt1) => `(tactic| with_reducible exact rt_beautifyRoots _ _ _)

theorem rt_indentChars (tab f : Nat) (s : Str) : InTime (indentChars tab f s) := by
  induction f generalizing s with
  | zero => exact rt_ok _
  | succ f ih =>
    cases s with
    | nil => exact rt_err (by decide)
    | cons b t =>
      have := ih t
      unfold indentChars
      rt
macro_rules | `(tactic| rt1) => `(tactic| with_reducible exact rt_indentChars _ _ _)

theorem rt_format (u : Uni) (cs : Bool) (void : List Str) (o : FormatOptions) (d : TextDoc) (r : Option Range) :
    InTime (format u cs void o d r) := by
  cases r with
  | none =>
    unfold format htmlBeautify
    rt
  | some r =>
    unfold format formatRange editRange initialLevel computeIndentLevel htmlBeautify
    rt

/-! ### Hover -/

theorem rt_scanWhile (c : Cfg) (p : Tok → Bool) (f : Nat) (s : Sc) (hf : mu c s < f) : InTime (scanWhile c p f s) := by
  induction f generalizing s with
  | zero => omega
  | succ f ih =>
    unfold scanWhile
    refine rt_bind (rt_scan _ _) fun s1 h1 => ?_
    split
    · rename_i hne
      have := (scan_step h1).mu_lt hne.1
      exact ih s1 (by omega)
    · exact rt_ok _

theorem rt_tokenRange (e : HoverEnv) (d : TextDoc) (t : TT) (a o : Nat) : InTime (e.tokenRange d t a o) := by
  unfold HoverEnv.tokenRange
  have := mu_start (e.cfg d) a
  refine rt_bind (rt_scanWhile _ _ _ _ (by have e : (e.cfg d).src = d.text := rfl; rw [e] at this; omega)) fun _ _ => ?_
  rt
macro_rules | `(tactic| rt1) => `(tactic| with_reducible exact rt_tokenRange _ _ _ _ _)

/-- Enough iterations for a loop that stops behind the last token. -/
def Enough (c : Cfg) (s : Sc) (f : Nat) : Prop := (s.tokenType = .EOS ∧ 0 < f) ∨ mu c s + 1 < f

theorem Enough.pos {c : Cfg} {s : Sc} {f : Nat} (h : Enough c s f) : 0 < f := by
  rcases h with h | h <;> omega

theorem Enough.scan {c : Cfg} {s s1 : Sc} {f : Nat} (h : Enough c s (f + 1)) (hs : scan c s = .ok s1) (hne : s.tokenType ≠ .EOS) :
    Enough c s1 f := by
  have h : mu c s + 1 < f + 1 := by
    rcases h with h | h
    · exact absurd h.1 hne
    · exact h
  by_cases h1 : s1.tokenType = .EOS
  · exact .inl ⟨h1, by omega⟩
  · have := (scan_step hs).mu_lt h1
    exact .inr (by omega)

theorem Enough.first {c : Cfg} {s1 : Sc} {o f : Nat} (hs : Html.scan c (.new o .WithinContent) = .ok s1)
    (hf : 2 * c.src.length < f) : Enough c s1 f := by
  by_cases h1 : s1.tokenType = .EOS
  · exact .inl ⟨h1, by omega⟩
  · have := (scan_step hs).mu_lt h1
    have := mu_start c o
    exact .inr (by omega)

theorem rt_attrBefore (c : Cfg) (a f : Nat) (prev : Option Str) (s : Sc) (hf : Enough c s f) : InTime (attrBefore c a f prev s) := by
  induction f generalizing prev s with
  | zero => exact absurd hf.pos (by omega)
  | succ f ih =>
    unfold attrBefore
    split
    · rename_i hne
      refine rt_bind (rt_scan _ _) fun s1 h1 => ?_
      have h2 := fun p => ih p s1 (hf.scan h1 hne.1)
      split
      · refine rt_bind (rt_bind (rt_text _ _) fun _ _ => rt_ok _) fun p _ => h2 p
      · exact h2 _
    · exact rt_ok _

theorem rt_scanAttr (e : HoverEnv) (d : TextDoc) (a b : Nat) : InTime (e.scanAttr d a b) := by
  unfold HoverEnv.scanAttr
  refine rt_bind (rt_scan _ _) fun s hs => rt_attrBefore _ _ _ _ _ (Enough.first hs ?_)
  show 2 * d.text.length < _
  omega
macro_rules | `(tactic| rt1) => `(tactic| with_reducible exact rt_scanAttr _ _ _ _)

theorem rt_hover (e : HoverEnv) (d : TextDoc) (p : Pos) (roots : List Node) : InTime (doHover e d p roots) := by
  unfold doHover HoverEnv.hoverInside HoverEnv.hoverValue HoverEnv.entityHover getEntityRange filterEntity
  rt

/-! ### Completion -/

theorem rt_quoteLoop (c : Cfg) (o : Nat) (v : Str) (f : Nat) (s : Sc) (hf : Enough c s f) : InTime (quoteLoop c o v f s) := by
  induction f generalizing s with
  | zero => exact absurd hf.pos (by omega)
  | succ f ih =>
    unfold quoteLoop
    split
    · rename_i hne
      split
      · rt
      · exact rt_bind (rt_scan _ _) fun s1 h1 => ih s1 (hf.scan h1 hne.1)
    · exact rt_ok _

theorem cfg_len (e : CompEnv) (d : TextDoc) (b : Bool) : (e.cfg d b).src.length = d.text.length := rfl

theorem rt_quoteComplete (e : CompEnv) (d : TextDoc) (p : Pos) (roots : List Node) : InTime (doQuoteComplete e d p roots) := by
  unfold doQuoteComplete
  dsimp only
  repeat' first | exact rt_ok _ | split
  refine rt_bind (rt_scan _ _) fun s hs => rt_quoteLoop _ _ _ _ _ (Enough.first hs ?_)
  rw [cfg_len]
  omega

theorem rt_endsAt (c : Cfg) (t : TT) (o f : Nat) (s : Sc) (hf : Enough c s f) : InTime (endsAt c t o f s) := by
  induction f generalizing s with
  | zero => exact absurd hf.pos (by omega)
  | succ f ih =>
    unfold endsAt
    split
    · rename_i hne
      split
      · exact rt_ok _
      · exact rt_bind (rt_scan _ _) fun s1 h1 => ih s1 (hf.scan h1 hne.1)
    · exact rt_ok _

theorem rt_tagComplete (e : CompEnv) (d : TextDoc) (p : Pos) (roots : List Node) : InTime (doTagComplete e d p roots) := by
  unfold doTagComplete completeStart completeEnd
  dsimp only
  repeat' first | exact rt_ok _ | split
  all_goals
    refine rt_bind (rt_scan _ _) fun s hs => rt_bind (rt_endsAt _ _ _ _ _ (Enough.first hs ?_)) fun _ _ => rt_ok _
    rw [cfg_len]
    omega

theorem rt_followedBy (c : Cfg) (t : TT) (f : Nat) (s : Sc) (hf : mu c s < f) : InTime (followedBy c t f s) := by
  induction f generalizing s with
  | zero => omega
  | succ f ih =>
    unfold followedBy
    refine rt_bind (rt_scan _ _) fun s1 h1 => ?_
    split
    · rename_i hw
      have := (scan_step h1).mu_lt (by rw [hw]; decide)
      exact ih s1 (by omega)
    · exact rt_ok _

theorem rt_isFollowedBy (x : CompCtx) (o : Nat) (st : SS) (t : TT) : InTime (x.isFollowedBy o st t) := by
  unfold CompCtx.isFollowedBy
  refine rt_followedBy _ _ _ _ ?_
  have := mu_any (x.env.cfg x.doc false) (.new o st)
  rw [cfg_len] at this
  omega
macro_rules | `(tactic| rt1) => `(tactic| with_reducible exact rt_isFollowedBy _ _ _ _)

theorem rt_lineIndent (text : Str) (o k : Nat) : InTime (lineIndent text o k) := by
  induction k with
  | zero => unfold lineIndent; rt
  | succ k ih => unfold lineIndent; rt
macro_rules | `(tactic| rt1) => `(tactic| with_reducible exact rt_lineIndent _ _ _)

theorem rt_closeTags (x : CompCtx) (a : Nat) (b : Bool) (z : Nat) : InTime (x.closeTags a b z) := by
  unfold CompCtx.closeTags CompCtx.closeItem getLineIndent
  rt
macro_rules | `(tactic| rt1) => `(tactic| with_reducible exact rt_closeTags _ _ _ _)

theorem rt_nextEnd (x : CompCtx) (s : Sc) (t : TT) : InTime (x.nextEnd s t) := by
  unfold CompCtx.nextEnd
  rt
macro_rules | `(tactic| rt1) => `(tactic| with_reducible exact rt_nextEnd _ _ _)

theorem rt_tags (x : CompCtx) (a z : Nat) : InTime (x.tags a z) := by
  unfold CompCtx.tags
  rt
macro_rules | `(tactic| rt1) => `(tactic| with_reducible exact rt_tags _ _ _)

theorem rt_providerAttrs (x : CompCtx) (r : Range) (v : Str) (tag : Option Str) (ps : List Provider) (ex : HMap Bool) :
    InTime (x.providerAttrs r v tag ps ex) := by
  induction ps generalizing ex with
  | nil => exact rt_ok _
  | cons p ps ih =>
    unfold CompCtx.providerAttrs
    refine rt_bind (rt_unwrap _) fun _ _ => rt_bind (ih _) fun _ _ => rt_ok _
macro_rules | `(tactic| rt1) => `(tactic| with_reducible exact rt_providerAttrs _ _ _ _ _ _)

theorem rt_attrNames (x : CompCtx) (tag : Option Str) (a z : Nat) : InTime (x.attrNames tag a z) := by
  unfold CompCtx.attrNames
  rt
macro_rules | `(tactic| rt1) => `(tactic| with_reducible exact rt_attrNames _ _ _ _)

theorem rt_wordStart (text : Str) (l k : Nat) : InTime (wordStart text l k) := by
  induction k with
  | zero => exact rt_ok _
  | succ k ih => unfold wordStart; rt
macro_rules | `(tactic| rt1) => `(tactic| with_reducible exact rt_wordStart _ _ _)

theorem rt_wordEnd (text : Str) (k o : Nat) : InTime (wordEnd text k o) := by
  induction k generalizing o with
  | zero => exact rt_ok _
  | succ k ih =>
    have := ih (o + 1)
    unfold wordEnd; rt
macro_rules | `(tactic| rt1) => `(tactic| with_reducible exact rt_wordEnd _ _ _)

theorem rt_attrValues (x : CompCtx) (tag : Option Str) (attr : Str) (a z : Nat) : InTime (x.attrValues tag attr a z) := by
  unfold CompCtx.attrValues CompCtx.valueRange CompCtx.inQuotes
  rt
macro_rules | `(tactic| rt1) => `(tactic| with_reducible exact rt_attrValues _ _ _ _ _)

theorem rt_insideContent (x : CompCtx) : InTime x.insideContent := by
  unfold CompCtx.insideContent CompCtx.entityItems
  rt
macro_rules | `(tactic| rt1) => `(tactic| with_reducible exact rt_insideContent _)

theorem rt_slashBefore (text : Str) (k : Nat) : InTime (slashBefore text k) := by
  induction k with
  | zero => exact rt_ok _
  | succ k ih => unfold slashBefore; rt
macro_rules | `(tactic| rt1) => `(tactic| with_reducible exact rt_slashBefore _ _)

theorem rt_onToken (x : CompCtx) (tag : Option Str) (attr : Str) (s : Sc) : InTime (x.onToken tag attr s) := by
  unfold CompCtx.onToken CompCtx.onStartTagOpen CompCtx.onStartTag CompCtx.onAttributeName CompCtx.onDelimiterAssign
    CompCtx.onAttributeValue CompCtx.onWhitespace CompCtx.onStartTagClose CompCtx.onContent CompCtx.onEndTagOpen CompCtx.onEndTag
  rt

theorem rt_compLoop (x : CompCtx) (f : Nat) (tag : Option Str) (attr : Str) (s : Sc) (hf : Enough (x.env.cfg x.doc true) s f) :
    InTime (x.loop f tag attr s) := by
  induction f generalizing tag attr s with
  | zero => exact absurd hf.pos (by omega)
  | succ f ih =>
    unfold CompCtx.loop
    split
    · rename_i hne
      refine rt_bind (rt_onToken _ _ _ _) fun r _ => ?_
      cases r with
      | some r => exact rt_ok _
      | none =>
        refine rt_bind ?_ fun tag' _ => rt_bind ?_ fun attr' _ => rt_bind (rt_scan _ _) fun s1 h1 => ih _ _ s1 (hf.scan h1 hne.1)
        · unfold CompCtx.nextTag; rt
        · unfold CompCtx.nextAttr; rt
    · exact rt_ok _

theorem rt_complete (e : CompEnv) (d : TextDoc) (p : Pos) (roots : List Node) : InTime (doComplete e d p roots) := by
  unfold doComplete
  dsimp only
  split
  · exact rt_ok _
  · refine rt_bind (rt_scan _ _) fun s hs => rt_compLoop _ _ _ _ _ (Enough.first hs ?_)
    show 2 * d.text.length < 2 * d.text.length + 2
    omega

/-! ### The service -/

theorem answer_terminates (c : CrateData) (s : Session) (q : Question)
    (hr : ∀ uri d f m, q = .links uri d f m → ∀ a b, f a b ≠ .error .fuel) : s.answer c q ≠ some (.error .fuel) := by
  have key : ∀ {r : R Answer}, InTime r → some r ≠ some (.error .fuel) := fun h h' => h (Option.some.inj h')
  have mgr : ∀ {m : Nat} {f : DataManager → R Answer}, (∀ x, InTime (f x)) →
      (s.managers[m]? >>= fun x => pure (f x)) ≠ some (.error .fuel) := by
    intro m f hf
    cases s.managers[m]? with
    | none => exact fun h => nomatch h
    | some x => exact key (hf x)
  cases q with
  | parse d m => exact mgr fun _ => rt_map (rt_parse _ _ _ _)
  | complete d p roots st m => exact mgr fun _ => rt_map (rt_complete _ _ _ _)
  | quoteComplete d p roots st => exact key (rt_map (rt_quoteComplete _ _ _ _))
  | tagComplete d p roots m => exact mgr fun _ => rt_map (rt_tagComplete _ _ _ _)
  | hover d p roots o m => exact mgr fun _ => rt_map (rt_hover _ _ _ _)
  | format d r o => exact key (rt_map (rt_format _ _ _ _ _ _))
  | highlights d p roots => exact key (rt_map (rt_highlights _ _ _ _ _))
  | links uri d f m => exact mgr fun _ => rt_map (rt_links (e := ⟨c.uni, s.service.caseSensitive, c.lib, uri, f⟩) (fun a b => hr uri d f m rfl a b) _)
  | symbols d roots => exact key (rt_ok _)
  | symbols2 d roots => exact key (rt_ok _)
  | folding d limit m => exact mgr fun _ => rt_map (rt_folding _ _ _ _ _)
  | selection d ps roots => exact key (rt_map (rt_selection _ _ _ _ _))
  | rename d p name roots => exact key (rt_ok _)
  | matching d p roots => exact key (rt_ok _)
  | linked d p roots => exact key (rt_ok _)

end Html
