import Verif.Proof.ParseConcat
import Verif.Model.Service
import Verif.Props.Parser

/-! # Texts that are put together: what the pieces have to do with each other (C66, C67, C68) -/

namespace Html.Props
open Html Html.Spec

/-! ### C66 -/

/-- C66: a scanner that starts behind some text finds the tokens that it finds without this text, moved; panics are the same. -/
theorem C66_offset (u : Uni) (pseudo cs : Bool) (pre src : Str) (o : Nat) (st : SS) :
    tokens ⟨u, pre ++ src, pseudo, cs⟩ (.new (pre.length + o) st) =
      (tokens ⟨u, src, pseudo, cs⟩ (.new o st)).map (fun ts => ts.map (Tok.shift pre.length)) := by
  rw [← tokens_shift (c := ⟨u, src, pseudo, cs⟩) (pre := pre)]
  have e : Eqv (Cfg.behind ⟨u, src, pseudo, cs⟩ pre) (.new (pre.length + o) st) ((Sc.new o st).shift pre.length) :=
    ⟨rfl, Nat.add_comm _ _, fun _ => .inl ⟨rfl, rfl, rfl, rfl⟩⟩
  change tokens (Cfg.behind ⟨u, src, pseudo, cs⟩ pre) _ = _
  unfold tokens
  rw [tokensF_eqv e, show (Sc.new (pre.length + o) st).pos = ((Sc.new o st).shift pre.length).pos from Nat.add_comm _ _]

/-- C66: the same for the scanners made by the service: `create_scanner(text, offset)` finds what
`create_scanner(&text[offset..], 0)` finds, moved. -/
theorem C66_create_scanner (c : CrateData) (o : ServiceOptions) (pre src : Str) :
    let (whole, s) := (Service.new o).createScanner c (pre ++ src) pre.length
    let (part, s') := (Service.new o).createScanner c src 0
    tokens whole s = (tokens part s').map (fun ts => ts.map (Tok.shift pre.length)) :=
  C66_offset c.uni false (o.caseSensitive.getD false) pre src 0 .WithinContent

/-- Inside an attribute value: as content it is a text followed by a tag. -/
example : returns (tokens ⟨exUni, b!"<a b='c<d>'>", false, false⟩ (.new 6 .WithinContent)) (fun ts =>
    ts.map (fun t => (t.type, t.offset, t.stop)) =
      [(.Content, 6, 7), (.StartTagOpen, 7, 8), (.StartTag, 8, 9), (.StartTagClose, 9, 10), (.Content, 10, 12)]) = true := by
  decide +kernel

/-! ### C67 -/

/-- C67: what follows a `>` that ends a tag, a comment or a doctype does not change the tokens up to there. -/
theorem C67_prefix (u : Uni) (pseudo cs : Bool) (x y y' : Str) (cps : List Nat) (hu : Utf8 cps (x ++ b!">")) (o : Nat) (st : SS)
    (ho : o ≤ x.length) (i r : List Tok) (t : Tok)
    (h : tokens ⟨u, x ++ b!">" ++ y, pseudo, cs⟩ (.new o st) = .ok (i ++ t :: r))
    (h1 : t.stop = x.length + 1) (h2 : isEndTT t.type = true) (h3 : t.offset < t.stop) :
    ∃ more : R (List Tok), tokens ⟨u, x ++ b!">" ++ y', pseudo, cs⟩ (.new o st) = more.map (fun r' => i ++ t :: r') := by
  have G : Agree x ⟨u, x ++ b!">" ++ y, pseudo, cs⟩ ⟨u, x ++ b!">" ++ y', pseudo, cs⟩ :=
    ⟨⟨y, by simp⟩, ⟨y', by simp⟩, rfl, rfl, rfl, whole_init hu⟩
  obtain ⟨s2, hr, _⟩ := tokens_run h
  rw [show i ++ t :: r = (i ++ [t]) ++ r by simp] at hr
  obtain ⟨s1, hr, _⟩ := hr.split
  have hk := hr.keeps G ho rfl h1 h2 h3
  have hm := hk.length_mu
  have hm2 := mu_le ⟨u, x ++ b!">" ++ y', pseudo, cs⟩ (.new o st)
  refine ⟨tokensF ⟨u, x ++ b!">" ++ y', pseudo, cs⟩
    (2 * ((x ++ b!">" ++ y').length - (Sc.new o st).pos) + 2 - (i ++ [t]).length) s1, ?_⟩
  have e := hk.tokensF (2 * ((x ++ b!">" ++ y').length - (Sc.new o st).pos) + 2 - (i ++ [t]).length)
  unfold tokens
  rw [show (i ++ [t]).length + (2 * ((x ++ b!">" ++ y').length - (Sc.new o st).pos) + 2 - (i ++ [t]).length) =
    2 * ((x ++ b!">" ++ y').length - (Sc.new o st).pos) + 2 from by
      simp only at hm2; omega] at e
  rw [e]
  cases tokensF ⟨u, x ++ b!">" ++ y', pseudo, cs⟩
    (2 * ((x ++ b!">" ++ y').length - (Sc.new o st).pos) + 2 - (i ++ [t]).length) s1 with
  | error e => rfl
  | ok l => simp [Except.map]

/-- C67: if a text ends with such a `>`, the tokens of the text with more text behind it are its tokens, and those of the
further text scanned from the state that was reached, moved; panics are the same. -/
theorem C67_concat (u : Uni) (pseudo cs : Bool) (a b : Str) (o : Nat) (st : SS) (i : List Tok) (t : Tok)
    (h : EndsBracket ⟨u, a, pseudo, cs⟩ o st i t) :
    tokens ⟨u, a ++ b, pseudo, cs⟩ (.new o st) =
      (tokens ⟨u, b, pseudo, cs⟩ (.new 0 t.state)).map (fun l => i ++ [t] ++ l.map (Tok.shift a.length)) := by
  obtain ⟨x, hx, hw, ho, h1⟩ := h.split
  exact tokens_append (c := ⟨u, a, pseudo, cs⟩) hw hx b (s := .new o st) ho h.toks h1 h.kind h.nonempty

/-- Behind the start tag of a script the text is scanned as a script. -/
example : returns (tokens ⟨exUni, b!"<p>a<script>", false, false⟩ (.new 0 .WithinContent)) (fun ts =>
      ts.getLast? = some ⟨.StartTagClose, 11, 12, none, .WithinScriptContent⟩) = true ∧
    returns (tokens ⟨exUni, b!"<p>a<script>" ++ b!"<b></script>", false, false⟩ (.new 0 .WithinContent)) (fun ts =>
      (ts.drop 7).map (fun t => (t.type, t.offset, t.stop)) =
        [(.Script, 12, 15), (.EndTagOpen, 15, 17), (.EndTag, 17, 23), (.EndTagClose, 23, 24)]) = true := by
  constructor <;> decide +kernel

/-- The `>` has to end a tag, a comment or a doctype: the tokens of `b>` and of `b>c` differ. -/
theorem C67_needs_bracket (u : Uni) (ps cs : Bool) :
    tokens ⟨u, b!"b>", ps, cs⟩ (.new 0 .WithinContent) = .ok [⟨.Content, 0, 2, none, .WithinContent⟩] ∧
    tokens ⟨u, b!"b>c", ps, cs⟩ (.new 0 .WithinContent) = .ok [⟨.Content, 0, 3, none, .WithinContent⟩] := by
  constructor <;> cases ps <;> cases cs <;> krfl

/-! ### C68 -/

/-- C68: the tree of a complete text with any further text behind it is its tree followed by the tree of the further text,
moved; panics are the same. -/
theorem C68_concat (u : Uni) (cs : Bool) (void : List Str) (a b : Str) (roots : List Node) (h : ClosedText u cs void a roots) :
    parse u cs void (a ++ b) = (parse u cs void b).map (fun more => roots ++ more.map (Node.shift a.length)) := by
  obtain ⟨i, t, hb, hs⟩ := h.last
  obtain ⟨x, hx, hw, _, h1⟩ := hb.split
  have hx : a = x ++ [62] := hx
  have ht := hb.toks
  have hp := h.tree
  rw [hx] at ht hp ⊢
  have := parse_append hw b hp ht h1 hb.kind hb.nonempty hs (fun n hn => h.closed n (List.mem_of_getLast? hn))
  simpa using this

/-- C68: so an edit behind a complete text leaves the nodes in front of it alone. -/
theorem C68_edit_behind (u : Uni) (cs : Bool) (void : List Str) (a b b' : Str) (roots all all' : List Node)
    (h : ClosedText u cs void a roots) (ha : parse u cs void (a ++ b) = .ok all) (ha' : parse u cs void (a ++ b') = .ok all') :
    all.take roots.length = roots ∧ all'.take roots.length = roots := by
  have key : ∀ b all, parse u cs void (a ++ b) = .ok all → all.take roots.length = roots := by
    intro b all ha
    rw [C68_concat u cs void a b roots h] at ha
    cases hb : parse u cs void b with
    | error e => rw [hb] at ha; cases ha
    | ok more =>
      rw [hb] at ha
      cases ha
      simp
  exact ⟨key b all ha, key b' all' ha'⟩

/-- C68: and replacing a complete text by another one only moves the nodes behind it. -/
theorem C68_edit_before (u : Uni) (cs : Bool) (void : List Str) (a a' b : Str) (roots roots' all all' : List Node)
    (h : ClosedText u cs void a roots) (h' : ClosedText u cs void a' roots') (ha : parse u cs void (a ++ b) = .ok all)
    (ha' : parse u cs void (a' ++ b) = .ok all') :
    ∃ more : List Node, all.drop roots.length = more.map (Node.shift a.length) ∧
      all'.drop roots'.length = more.map (Node.shift a'.length) := by
  rw [C68_concat u cs void a b roots h] at ha
  rw [C68_concat u cs void a' b roots' h'] at ha'
  cases hb : parse u cs void b with
  | error e => rw [hb] at ha; cases ha
  | ok more =>
    rw [hb] at ha ha'
    cases ha
    cases ha'
    exact ⟨more, by simp, by simp⟩

/-- A text that meets the hypotheses. -/
example : ClosedText exUni false [b!"br"] b!"<!doctype html><p>é</p><br>"
    [⟨some b!"p", 15, 24, [], true, some 18, some 20, []⟩, ⟨some b!"br", 24, 28, [], true, some 28, none, []⟩] where
  tree := by krfl
  last := ⟨[⟨.StartDoctypeTag, 0, 9, none, .WithinDoctype⟩, ⟨.Doctype, 9, 14, none, .WithinDoctype⟩,
      ⟨.EndDoctypeTag, 14, 15, none, .WithinContent⟩, ⟨.StartTagOpen, 15, 16, none, .AfterOpeningStartTag⟩,
      ⟨.StartTag, 16, 17, none, .WithinTag⟩, ⟨.StartTagClose, 17, 18, none, .WithinContent⟩,
      ⟨.Content, 18, 20, none, .WithinContent⟩, ⟨.EndTagOpen, 20, 22, none, .AfterOpeningEndTag⟩,
      ⟨.EndTag, 22, 23, none, .WithinEndTag⟩, ⟨.EndTagClose, 23, 24, none, .WithinContent⟩,
      ⟨.StartTagOpen, 24, 25, none, .AfterOpeningStartTag⟩, ⟨.StartTag, 25, 27, none, .WithinTag⟩],
    ⟨.StartTagClose, 27, 28, none, .WithinContent⟩,
    ⟨⟨[60, 33, 100, 111, 99, 116, 121, 112, 101, 32, 104, 116, 109, 108, 62, 60, 112, 62, 0xe9, 60, 47, 112, 62, 60, 98, 114, 62],
      by decide, by decide⟩, by krfl, by decide, by decide⟩, rfl⟩
  closed := by decide

example : returns (parse exUni false [] b!"<p a=b></p><i></q>") (fun roots =>
    roots.map (fun n => (n.tag, n.start, n.stop, n.attributes.map (·.2.offset))) =
      [(some b!"p", 0, 11, [3]), (some b!"i", 11, 18, [])]) = true := by decide +kernel

/-- No element may be left open: `<p>` and `</p>` do not make two trees. -/
theorem C68_needs_closed (u : Uni) (cs : Bool) :
    parse u cs [] b!"<p>" = .ok [⟨some b!"p", 0, 3, [], false, some 3, none, []⟩] ∧ parse u cs [] b!"</p>" = .ok [] ∧
    parse u cs [] (b!"<p>" ++ b!"</p>") = .ok [⟨some b!"p", 0, 7, [], true, some 3, some 3, []⟩] := by
  refine ⟨?_, ?_, ?_⟩ <;> cases cs <;> krfl

end Html.Props
