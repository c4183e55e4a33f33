import Verif.Proof.AttrProposals

/-! # Providers that are not enabled play no part in completion -/

namespace Html
open Spec

variable {e : CompEnv} {ps : List Provider} {d : TextDoc} {position : Pos} {o : Nat} {n : Node} {up roots : List Node}

/-- The same environment with other providers. -/
def CompEnv.other (e : CompEnv) (ps : List Provider) : CompEnv := { e with providers := ps }

/-- The same context with other providers. -/
def CompCtx.other (x : CompCtx) (ps : List Provider) : CompCtx := { x with env := x.env.other ps }

variable {x : CompCtx} (ha : (x.env.other ps).active = x.env.active) (hv : (x.env.other ps).void = x.env.void)

theorem other_attrItem (range : Range) (v : Str) (a : AttributeData) :
    (x.other ps).attrItem range v a = x.attrItem range v a := rfl

theorem other_attrItems (range : Range) (v : Str) (as : List AttributeData) (ex : HMap Bool) :
    (x.other ps).attrItems range v as ex = x.attrItems range v as ex := by
  induction as generalizing ex with
  | nil => rfl
  | cons a as ih => simp only [CompCtx.attrItems, ih, other_attrItem]

theorem other_providerAttrs (range : Range) (v : Str) (tag : Option Str) (l : List Provider) (ex : HMap Bool) :
    (x.other ps).providerAttrs range v tag l ex = x.providerAttrs range v tag l ex := by
  induction l generalizing ex with
  | nil => rfl
  | cons a as ih =>
    simp only [CompCtx.providerAttrs, ih, other_attrItems]
    rfl

include ha

theorem other_attrNames (tag : Option Str) (a b : Nat) : (x.other ps).attrNames tag a b = x.attrNames tag a b := by
  unfold CompCtx.attrNames
  simp only [other_providerAttrs]
  rw [show (x.other ps).env.active = x.env.active from ha]
  rfl

theorem other_attrValues (tag : Option Str) (attr : Str) (a b : Nat) :
    (x.other ps).attrValues tag attr a b = x.attrValues tag attr a b := by
  unfold CompCtx.attrValues
  rw [show (x.other ps).env.active = x.env.active from ha]
  rfl

theorem other_openTags (a b : Nat) : (x.other ps).openTags a b = x.openTags a b := by
  unfold CompCtx.openTags
  rw [show (x.other ps).env.active = x.env.active from ha]
  rfl

theorem other_endTags : (x.other ps).endTags = x.endTags := by
  unfold CompCtx.endTags
  rw [show (x.other ps).env.active = x.env.active from ha]
  rfl

theorem other_closeTags (a : Nat) (b : Bool) (c : Nat) : (x.other ps).closeTags a b c = x.closeTags a b c := by
  unfold CompCtx.closeTags
  rw [other_endTags ha]
  rfl

theorem other_tags (a b : Nat) : (x.other ps).tags a b = x.tags a b := by
  unfold CompCtx.tags
  rw [other_openTags ha, other_closeTags ha]

include hv

theorem other_autoClose (a : Nat) (t : Str) : (x.other ps).autoClose a t = x.autoClose a t := by
  unfold CompCtx.autoClose
  rw [show (x.other ps).env.void = x.env.void from hv]
  rfl

theorem other_onToken (tag : Option Str) (attr : Str) (s : Sc) :
    (x.other ps).onToken tag attr s = x.onToken tag attr s := by
  have h1 : (x.other ps).autoClose s.pos = x.autoClose s.pos := funext (other_autoClose ha hv s.pos)
  unfold CompCtx.onToken CompCtx.onStartTagOpen CompCtx.onStartTag CompCtx.onAttributeName CompCtx.onDelimiterAssign
    CompCtx.onAttributeValue CompCtx.onWhitespace CompCtx.onStartTagClose CompCtx.onEndTagOpen CompCtx.onEndTag
  simp only [h1, other_tags ha, other_openTags ha, other_closeTags ha, other_attrNames ha, other_attrValues ha]
  rfl

theorem other_loop (f : Nat) (tag : Option Str) (attr : Str) (s : Sc) :
    (x.other ps).loop f tag attr s = x.loop f tag attr s := by
  induction f generalizing tag attr s with
  | zero => rfl
  | succ f ih =>
    simp only [CompCtx.loop, ih, other_onToken ha hv]
    rfl

omit ha hv in
theorem other_doComplete (ha : (e.other ps).active = e.active) (hv : (e.other ps).void = e.void) :
    doComplete (e.other ps) d position roots = doComplete e d position roots := by
  unfold doComplete
  simp only
  cases findNodeBefore roots (d.offsetAt position) with
  | none => rfl
  | some q =>
    obtain ⟨n, up⟩ := q
    have := fun s => other_loop (x := ⟨e, d, position, d.offsetAt position, n, up, roots⟩) (ps := ps) ha hv
      (2 * d.text.length + 2) .none [] s
    exact congrArg _ (funext this)

end Html
