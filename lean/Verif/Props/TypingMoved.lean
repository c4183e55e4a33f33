import Verif.Proof.TypingMoved
import Verif.Props.Moved
import Verif.Props.Completion

/-!
# C99: closing tags and quotes while typing, with text put in front
-/

namespace Html.Props
open Html Html.Spec

section
variable (u : Uni) (cs : Bool) (void : List Str) (pre : Str) (front roots roots' : List Node) (e p : Pos) (d d' : TextDoc)
  (env : CompEnv) (a : Node)

/-- C99: behind a complete text the same closing tag is inserted as without it, if the first element begins in front of the
cursor. -/
theorem C99_tag_complete (hc : ClosedText u cs void pre front) (hb : PutBehind pre e d d')
    (h : parse u cs void d.text = .ok roots) (h' : parse u cs void d'.text = .ok roots')
    (ha : roots.head? = some a) (hp : a.start < d.offsetAt p) :
    doTagComplete env d' (Pos.after e p) roots' = doTagComplete env d p roots :=
  tag_moved hc hb h h' ha hp

/-- C99: the same for quotes. -/
theorem C99_quote_complete (hc : ClosedText u cs void pre front) (hb : PutBehind pre e d d')
    (h : parse u cs void d.text = .ok roots) (h' : parse u cs void d'.text = .ok roots')
    (ha : roots.head? = some a) (hp : a.start < d.offsetAt p) :
    doQuoteComplete env d' (Pos.after e p) roots' = doQuoteComplete env d p roots :=
  quote_moved hc hb h h' ha hp

end

/-- Behind `<i>`, with a line break and a `b` in front (see `exInFront`). -/
example (u : Uni) (cs : Bool) :
    (∃ roots a, parse u cs [] b!"<i>" = .ok roots ∧ roots.head? = some a ∧
      a.start < (TextDoc.ref b!"<i>").offsetAt ⟨0, 3⟩ ∧
      doTagComplete { exComp with uni := u, caseSensitive := cs } (.ref b!"<i>") ⟨0, 3⟩ roots = .ok (some b!"$0</i>")) ∧
    (∃ roots', parse u cs [] (b!"\n<b/>" ++ b!"<i>") = .ok roots' ∧ Pos.after ⟨1, 4⟩ ⟨0, 3⟩ = ⟨1, 7⟩ ∧
      doTagComplete { exComp with uni := u, caseSensitive := cs } (.ref (b!"\n<b/>" ++ b!"<i>")) ⟨1, 7⟩ roots' =
        .ok (some b!"$0</i>")) := by
  refine ⟨⟨[⟨some b!"i", 0, 3, [], false, some 3, none, []⟩], _, by cases cs <;> krfl, rfl, by decide, by cases cs <;> krfl⟩,
    ⟨[⟨some b!"b", 1, 5, [], true, some 5, none, []⟩, ⟨some b!"i", 5, 8, [], false, some 8, none, []⟩],
      by cases cs <;> krfl, rfl, by cases cs <;> krfl⟩⟩

/-- Behind `a=`. -/
example (u : Uni) (cs : Bool) :
    (parse u cs [] b!"<i a=>" >>= fun roots =>
      doQuoteComplete { exComp with uni := u, caseSensitive := cs } (.ref b!"<i a=>") ⟨0, 5⟩ roots) =
        .ok (some b!"\"$1\"") ∧
    (parse u cs [] (b!"\n<b/>" ++ b!"<i a=>") >>= fun roots' =>
      doQuoteComplete { exComp with uni := u, caseSensitive := cs } (.ref (b!"\n<b/>" ++ b!"<i a=>")) ⟨1, 9⟩ roots') =
        .ok (some b!"\"$1\"") := by
  cases cs <;> exact ⟨by krfl, by krfl⟩

/-- C99: the text in front has to be complete: behind `</` the open element of the text in front is closed. -/
theorem C99_needs_closed (u : Uni) (cs : Bool) :
    ∃ roots roots', parse u cs [] b!"<i></i></" = .ok roots ∧ parse u cs [] (b!"<p>" ++ b!"<i></i></") = .ok roots' ∧
      doTagComplete { exComp with uni := u, caseSensitive := cs } (.ref b!"<i></i></") ⟨0, 9⟩ roots = .ok none ∧
      doTagComplete { exComp with uni := u, caseSensitive := cs } (.ref (b!"<p>" ++ b!"<i></i></")) (Pos.after ⟨0, 3⟩ ⟨0, 9⟩) roots' =
        .ok (some b!"p>") := by
  refine ⟨[⟨some b!"i", 0, 7, [], true, some 3, some 3, []⟩],
    [⟨some b!"p", 0, 12, [⟨some b!"i", 3, 10, [], true, some 6, some 6, []⟩], false, some 3, none, []⟩],
    by cases cs <;> krfl, by cases cs <;> krfl, by cases cs <;> krfl, by cases cs <;> krfl⟩

end Html.Props
