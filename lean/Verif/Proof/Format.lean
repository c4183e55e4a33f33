import Verif.Proof.FormatText
import Verif.Proof.Query
import Verif.Props.Parser

/-! # Formatting of elements -/

namespace Html
open Spec

theorem openText_laid (o : FormatOptions) (level : Nat) (n : Node) (tag : Str) :
    Laid Layout (⟨false, b!"<" ++ tag⟩ :: attrPieces n.attributesByOrder) (openText o level n tag) := by
  unfold openText attrsText attrPieces
  refine ⟨indentText o level, n.attributesByOrder.flatMap (fun x =>
      (if attrsWrap o level n tag = true then [10] ++ attrIndent o level else [32]) ++ attrText x),
      ?_, Layout.indent o level, by simp, ?_⟩
  · simp
  · generalize n.attributesByOrder = l
    induction l with
    | nil => exact Layout.nil
    | cons x l ih =>
      rw [List.flatMap_cons, List.map_cons]
      refine Laid.append (ps := [_]) (Laid.single' _ ?_ ?_) ih
      · split
        · exact Layout.newline.append (Layout.attrIndent o level)
        · intro c hc; simp at hc; simp [hc]
      · split <;> simp

theorem textOnly_laid {o : FormatOptions} {src : Str} {level s e : Nat} {wrap : Bool} {t : Str}
    (h : textOnly o src level wrap s e = .ok t) : Laid Layout (wordPieces (bytesIn src s e)) t := by
  unfold textOnly at h
  split at h
  · rename_i hse
    cases h
    have : bytesIn src s e = [] := by
      rw [hse]; unfold bytesIn
      exact List.drop_eq_nil_of_le (by simp; omega)
    rw [this]
    exact Layout.nil
  · obtain ⟨x, hx, h⟩ := bind_ok h
    have hx' : x = bytesIn src s e := (sliceStr_ok hx).2.2.2.2
    subst hx'
    cases h
    have hl := beautifyText_laid o (level + 1) (bytesIn src s e)
    split
    · exact Laid.left (Layout.newline.append (Layout.indent o _))
        (trimLeft_laid (fun w hw => words_starts hw) hl)
    · exact hl

mutual
theorem Node.beautify_laid {o : FormatOptions} {src : Str} {level : Nat} {n : Node} {t : Str}
    (h : n.beautify o src level = .ok t) : Laid Layout (nodePieces src n) t := by
  match n, h with
  | ⟨tag, start, stop, children, closed, ste, ets, attrs⟩, h =>
    unfold Node.beautify at h
    cases tag with
    | none => cases h
    | some tag =>
      simp only [unwrap, bind, Except.bind] at h
      unfold nodePieces
      dsimp only at h ⊢
      have hopen := openText_laid o level ⟨some tag, start, stop, children, closed, ste, ets, attrs⟩ tag
      cases ets with
      | none =>
        dsimp only at h ⊢
        cases h
        refine hopen.append ?_
        split
        · exact Laid.single' _ (Layout.newline.append (Layout.indent o level)) (by simp)
        · exact Laid.single' (w := [32]) b!"/>" (by intro c hc; simp at hc; simp [hc]) (by simp)
      | some e =>
        cases ste with
        | none => cases h
        | some s =>
          dsimp only at h ⊢
          obtain ⟨kids, hk, h⟩ := bind_ok h
          obtain ⟨wrap, hw, h⟩ := bind_ok h
          obtain ⟨text, ht, h⟩ := bind_ok h
          cases h
          have hkids : Laid Layout (kidsPieces src s e children) (kids ++ text) := by
            cases children with
            | nil =>
              simp only [Node.beautifyKids, Except.ok.injEq] at hk
              subst hk
              simp only [leafText, List.isEmpty_nil, if_true] at ht
              exact textOnly_laid ht
            | cons c l =>
              simp only [leafText, List.isEmpty_cons] at ht
              cases ht
              rw [List.append_nil]
              exact Node.beautifyKids_laid (by simp) hk
          have hend : Laid Layout [⟨false, b!"</" ++ tag ++ b!">"⟩]
              ((if attrsWrap o level ⟨some tag, start, stop, children, closed, some s, some e, attrs⟩ tag = true ∨
                wrap = true then [10] ++ indentText o level else []) ++ (b!"</" ++ tag ++ b!">")) := by
            refine Laid.left ?_ (Laid.single _)
            split
            · exact Layout.newline.append (Layout.indent o level)
            · exact Layout.nil
          have hgt : Laid Layout [⟨false, b!">"⟩]
              ((if attrsWrap o level ⟨some tag, start, stop, children, closed, some s, some e, attrs⟩ tag = true
                then [10] ++ indentText o level else []) ++ b!">") := by
            refine Laid.left ?_ (Laid.single _)
            split
            · exact Layout.newline.append (Layout.indent o level)
            · exact Layout.nil
          have := hopen.append ((hgt.append hkids).append hend)
          simpa only [List.append_assoc, List.cons_append, Option.getD_some] using this
theorem Node.beautifyKids_laid {o : FormatOptions} {src : Str} {level prev stop : Nat} {l : List Node} {t : Str}
    (hl : l ≠ []) (h : Node.beautifyKids o src level prev stop l = .ok t) :
    Laid Layout (kidsPieces src prev stop l) t := by
  match l, h with
  | [], _ => exact absurd rfl hl
  | [c], h =>
    unfold Node.beautifyKids at h
    obtain ⟨b, hb, h⟩ := bind_ok h
    obtain ⟨x, hx, h⟩ := bind_ok h
    obtain ⟨a, ha, h⟩ := bind_ok h
    cases h
    have hb' := (sliceStr_ok hb).2.2.2.2
    have ha' := (sliceStr_ok ha).2.2.2.2
    subst hb' ha'
    unfold kidsPieces
    have h1 := Laid.right Layout.newline (beautifyText_laid o level (bytesIn src prev c.start))
    exact (h1.append (Node.beautify_laid hx)).append (beautifyText_laid o level _)
  | c :: d :: l, h =>
    unfold Node.beautifyKids at h
    obtain ⟨b, hb, h⟩ := bind_ok h
    obtain ⟨x, hx, h⟩ := bind_ok h
    obtain ⟨r, hr, h⟩ := bind_ok h
    cases h
    have hb' := (sliceStr_ok hb).2.2.2.2
    subst hb'
    have e : ∀ r, kidsPieces src prev stop (c :: r) = wordPieces (bytesIn src prev c.start) ++ nodePieces src c ++
      kidsPieces src c.stop stop r := fun r => by conv => lhs; unfold kidsPieces
    rw [e]
    have h1 := Laid.right Layout.newline (beautifyText_laid o level (bytesIn src prev c.start))
    exact (h1.append (Node.beautify_laid hx)).append (Node.beautifyKids_laid (by simp) hr)
end

theorem beautifyRoots_laid {o : FormatOptions} {src : Str} {l : List Node} {t : Str}
    (h : beautifyRoots o src l = .ok t) : Laid Layout (docPieces src l) t := by
  induction l generalizing t with
  | nil => cases h; exact Layout.nil
  | cons n l ih =>
    unfold beautifyRoots at h
    obtain ⟨x, hx, h⟩ := bind_ok h
    obtain ⟨r, hr, h⟩ := bind_ok h
    cases h
    unfold docPieces
    rw [List.flatMap_cons]
    exact (Node.beautify_laid hx).append (ih hr)

/-- The formatted text consists of the pieces of the document. -/
theorem htmlBeautify_laid {u : Uni} {cs : Bool} {void : List Str} {o : FormatOptions} {src out : Str}
    (h : htmlBeautify u cs void o src = .ok out) :
    ∃ roots, parse u cs void src = .ok roots ∧ Laid Layout (docPieces src roots) out := by
  unfold htmlBeautify at h
  obtain ⟨roots, hr, h⟩ := bind_ok h
  obtain ⟨t, ht, h⟩ := bind_ok h
  cases h
  refine ⟨roots, hr, ?_⟩
  split
  · exact Laid.right Layout.newline (beautifyRoots_laid ht)
  · exact beautifyRoots_laid ht

end Html
