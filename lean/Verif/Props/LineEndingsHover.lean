import Verif.Proof.LineEndingsHover
import Verif.Props.LineEndings
import Verif.Props.Hover

/-! # Hovering with `\r\n` instead of `\n`: C104 -/

namespace Html.Props
open Html Spec

/-- **C104.** Hovering at the same place gives the same answer with either line ending, or panics in the same way, unless the
cursor is in an attribute value with a line end in it.  The participants are asked about the same document and position, and the
attributes a provider knows of may depend on the element but not on the offset. -/
theorem C104_hover (u : Uni) (cs : Bool) (void : List Str) (e : HoverEnv) (cps : List Nat) (d d' : TextDoc) (roots : List Node) (o : Nat)
    (hu : Utf8 cps d.text) (hd : OtherEnds d d') (hl : Lawful d) (hl' : Lawful d') (hp : parse u cs void d.text = .ok roots)
    (ho : o ≤ d.text.length) (hb : isBoundary d.text o = true)
    (hq : ∀ p ∈ e.providers, ∀ t i j, p.provideAttributes t i = p.provideAttributes t j)
    (ht : ∀ n, InForest roots n → Covers n o →
      ∃ ts, tokens ⟨e.uni, d.text, false, e.caseSensitive⟩ (.new n.start .WithinContent) = .ok ts ∧
        ∀ t ∈ ts, t.type = .AttributeValue → t.offset ≤ o → o ≤ t.stop → 10 ∉ text d.text t) :
    ∃ roots', parse u cs void d'.text = .ok roots' ∧ doHover e d' (d.posAt o) roots' = doHover e d (d.posAt o) roots :=
  ⟨crNodes d.text roots, by rw [hd.text, ln_parse u cs void hu, hp]; rfl, hover_cr hu hd hl hl' hp ho hb hq ht⟩

/-- A document with line ends in a tag, in a value and in the content. -/
def exHoverLines : Str := b!"<a z='\n'\n b='c'>\n&lt;</a>"

/-- The hypotheses of `C104_hover` hold for it with the cursor in the value of `b`. -/
example (cs : Bool) : OtherEnds (.ref exHoverLines) (.ref (crlf exHoverLines)) ∧
    (∀ p ∈ (exHover cs).providers, ∀ t i j, p.provideAttributes t i = p.provideAttributes t j) ∧
    parse exUni cs [] exHoverLines = .ok [⟨some b!"a", 0, 25, [], true, some 16, some 21,
      [(b!"z", ⟨some b!"'\n'", 3⟩), (b!"b", ⟨some b!"'c'", 10⟩)]⟩] ∧
    returns (tokens ⟨exUni, exHoverLines, false, cs⟩ (.new 0 .WithinContent)) (fun ts => ts.all (fun t =>
      decide (t.type = .AttributeValue → t.offset ≤ 13 → 13 ≤ t.stop → 10 ∉ text exHoverLines t))) = true := by
  refine ⟨C92_positions _ (by decide), fun q hq => ?_, by cases cs <;> krfl, by cases cs <;> decide +kernel⟩
  cases hq with
  | head => intro _ _ _; rfl
  | tail _ hq => cases hq

/-- The answer at a position. -/
def exHoverPos (cs : Bool) (src : Str) (p : Pos) : R (Option (Str × Option Range)) := do
  let roots ← parse exUni cs [] src
  let h ← doHover (exHover cs) (.ref src) p roots
  .ok (h.map fun h => (h.contents.value, h.range))

example (cs : Bool) : exHoverPos cs exHoverLines ⟨2, 4⟩ = .ok (some (b!"value", some ⟨⟨2, 3⟩, ⟨2, 6⟩⟩)) ∧
    exHoverPos cs (crlf exHoverLines) ⟨2, 4⟩ = .ok (some (b!"value", some ⟨⟨2, 3⟩, ⟨2, 6⟩⟩)) ∧
    exHoverPos cs exHoverLines ⟨3, 2⟩ =
      .ok (some (b!"Character entity representing '<', unicode equivalent 'U+003C'", some ⟨⟨3, 1⟩, ⟨3, 4⟩⟩)) ∧
    exHoverPos cs (crlf exHoverLines) ⟨3, 2⟩ =
      .ok (some (b!"Character entity representing '<', unicode equivalent 'U+003C'", some ⟨⟨3, 1⟩, ⟨3, 4⟩⟩)) := by
  refine ⟨?_, ?_, ?_, ?_⟩ <;> cases cs <;> krfl

/-- **C104 needs** a value without line ends under the cursor: the participants see it. -/
theorem C104_needs_value :
    returns (parse exUni false [] b!"<a b='\n'>" >>= doHover { exHover false with participants :=
      [⟨fun _ _ v r => some ⟨⟨false, v⟩, some r⟩, none⟩] } (.ref b!"<a b='\n'>") ⟨0, 6⟩)
      (fun a => decide (a = some ⟨⟨false, b!"\n"⟩, some ⟨⟨0, 5⟩, ⟨1, 1⟩⟩⟩)) = true ∧
    returns (parse exUni false [] b!"<a b='\r\n'>" >>= doHover { exHover false with participants :=
      [⟨fun _ _ v r => some ⟨⟨false, v⟩, some r⟩, none⟩] } (.ref b!"<a b='\r\n'>") ⟨0, 6⟩)
      (fun a => decide (a = some ⟨⟨false, b!"\r\n"⟩, some ⟨⟨0, 5⟩, ⟨1, 1⟩⟩⟩)) = true :=
  ⟨by decide +kernel, by decide +kernel⟩

end Html.Props
