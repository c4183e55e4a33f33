import Verif.Proof.CompMoved
import Verif.Props.Moved
import Verif.Props.Completion

/-!
# C100: completion proposals, with text put in front
-/

namespace Html.Props
open Html Html.Spec

section
variable (u : Uni) (cs : Bool) (void : List Str) (pre : Str) (front roots roots' : List Node) (e p : Pos) (d d' : TextDoc)
  (env : CompEnv) (a : Node) (cps : List Nat) (l : List CompItem)

/-- C100: if a document begins with a line break, and a complete text is put in front of it that has no attributes whose names
begin with `data-`, the proposals behind the first line are the same as without that text, in the same order, and their edits are
made at the moved places. The first element begins in front of the cursor, there are no participants, and the attributes that a
provider knows do not depend on the white space at the cursor. -/
theorem C100_proposals (hc : ClosedText u cs void pre front) (hb : PutBehind pre e d d')
    (h : parse u cs void d.text = .ok roots) (h' : parse u cs void d'.text = .ok roots')
    (ha : roots.head? = some a) (hp : a.start < d.offsetAt p) (hu : Utf8 cps d.text) (h10 : d.text.head? = some 10)
    (hl : p.line ≠ 0) (hd : NoData front) (hn : env.participants = [])
    (hv : ∀ q ∈ env.providers, ∀ t i j, q.provideAttributes t i = q.provideAttributes t j)
    (hr : doComplete env d p roots = .ok l) :
    doComplete env d' (Pos.after e p) roots' = .ok (l.map (CompItem.after e)) :=
  complete_moved hc hb h h' ha hp hu h10 hl hd hn hv hr

end

/-- The proposal to close `tag`, behind `</`. -/
def exClose (tag : Str) (r : Range) : CompItem :=
  { label := [47] ++ tag, kind := some .property, filterText := some ([47] ++ tag),
    textEdit := some ⟨r, [47] ++ tag ++ [62]⟩, snippet := some false }

/-- The proposal to close `tag` that also puts the end tag behind the indentation `ind`. -/
def exCloseIndent (ind tag : Str) (r : Range) : CompItem :=
  { exClose tag r with filterText := some ([60, 47] ++ tag), textEdit := some ⟨r, ind ++ [60, 47] ++ tag ++ [62]⟩ }

/-- Behind `</`, with a line break and a `b` in front (see `exInFront`). -/
example (u : Uni) (cs : Bool) :
    Utf8 [10, 60, 105, 62, 60, 47] b!"\n<i></" ∧ (b!"\n<i></").head? = some 10 ∧
    NoData [⟨some b!"b", 1, 5, [], true, some 5, none, []⟩] ∧
    (∃ roots a, parse u cs [] b!"\n<i></" = .ok roots ∧ roots.head? = some a ∧
      a.start < (TextDoc.ref b!"\n<i></").offsetAt ⟨1, 5⟩ ∧
      doComplete { exComp with uni := u, caseSensitive := cs } (.ref b!"\n<i></") ⟨1, 5⟩ roots =
        .ok [exClose b!"i" ⟨⟨1, 4⟩, ⟨1, 5⟩⟩]) ∧
    (∃ roots', parse u cs [] (b!"\n<b/>" ++ b!"\n<i></") = .ok roots' ∧ Pos.after ⟨1, 4⟩ ⟨1, 5⟩ = ⟨2, 5⟩ ∧
      doComplete { exComp with uni := u, caseSensitive := cs } (.ref (b!"\n<b/>" ++ b!"\n<i></")) ⟨2, 5⟩ roots' =
        .ok [exClose b!"i" ⟨⟨2, 4⟩, ⟨2, 5⟩⟩]) := by
  refine ⟨⟨by decide, rfl⟩, rfl, ?_,
    ⟨[⟨some b!"i", 1, 6, [], false, some 4, none, []⟩], _, by cases cs <;> krfl, rfl, by decide, by cases cs <;> krfl⟩,
    ⟨[⟨some b!"b", 1, 5, [], true, some 5, none, []⟩, ⟨some b!"i", 6, 11, [], false, some 9, none, []⟩],
      by cases cs <;> krfl, rfl, by cases cs <;> krfl⟩⟩
  intro n hn
  have : n.children = [] ∧ n.attributes = [] := by
    induction hn with
    | root h => simp at h; subst h; exact ⟨rfl, rfl⟩
    | child _ hc ih => rw [ih.1] at hc; cases hc
  rw [this.2]
  nofun

/-- C100: the document has to begin with a line break: otherwise the indentation of its first line is not that of a line. -/
theorem C100_needs_line_break (u : Uni) (cs : Bool) :
    ∃ roots roots', parse u cs [] b!" <p>\n</" = .ok roots ∧ parse u cs [] (b!"\n<b/>" ++ b!" <p>\n</") = .ok roots' ∧
      doComplete { exComp with uni := u, caseSensitive := cs } (.ref b!" <p>\n</") ⟨1, 2⟩ roots =
        .ok [exCloseIndent b!" " b!"p" ⟨⟨1, 0⟩, ⟨1, 2⟩⟩] ∧
      doComplete { exComp with uni := u, caseSensitive := cs } (.ref (b!"\n<b/>" ++ b!" <p>\n</")) (Pos.after ⟨1, 4⟩ ⟨1, 2⟩) roots' =
        .ok [exClose b!"p" ⟨⟨2, 1⟩, ⟨2, 2⟩⟩] := by
  refine ⟨[⟨some b!"p", 1, 7, [], false, some 4, none, []⟩],
    [⟨some b!"b", 1, 5, [], true, some 5, none, []⟩, ⟨some b!"p", 6, 12, [], false, some 9, none, []⟩],
    by cases cs <;> krfl, by cases cs <;> krfl, by cases cs <;> krfl, by cases cs <;> krfl⟩

/-- The proposal of a data attribute. -/
def exData (name value : Str) (r : Range) : CompItem :=
  { label := name, kind := some .value, textEdit := some ⟨r, name ++ value⟩, snippet := some true }

/-- C100: names of data attributes in the text in front are proposed as well. -/
theorem C100_needs_no_data (u : Uni) (cs : Bool) :
    (parse u cs [] b!"\n<i ></i>" >>= fun roots =>
      doComplete { exComp with uni := u, caseSensitive := cs } (.ref b!"\n<i ></i>") ⟨1, 3⟩ roots) =
        .ok [exData b!"data-" b!"$1=\"$2\"" ⟨⟨1, 3⟩, ⟨1, 3⟩⟩] ∧
    (parse u cs [] (b!"<b data-k=x />" ++ b!"\n<i ></i>") >>= fun roots' =>
      doComplete { exComp with uni := u, caseSensitive := cs } (.ref (b!"<b data-k=x />" ++ b!"\n<i ></i>"))
        (Pos.after ⟨0, 14⟩ ⟨1, 3⟩) roots') =
        .ok [exData b!"data-k" b!"=\"$1\"" ⟨⟨1, 3⟩, ⟨1, 3⟩⟩, exData b!"data-" b!"$1=\"$2\"" ⟨⟨1, 3⟩, ⟨1, 3⟩⟩] := by
  cases cs <;> exact ⟨by krfl, by krfl⟩

end Html.Props
