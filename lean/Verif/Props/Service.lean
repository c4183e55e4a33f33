import Verif.Spec.Service
import Verif.Props.Format
import Verif.Props.LanguageFacts

/-!
# The service over time (C63, C64)
-/

namespace Html.Props
open Html Spec

theorem created_snoc (pre : List Call) (x : Call) :
    created (pre ++ [x]) = created pre + if creates x then 1 else 0 := by
  unfold created
  rw [List.countP_append, List.countP_singleton]

theorem current_snoc {pre : List Call} {x : Call} {m : Nat} {b : Bool} {ps : List Provider}
    (h : Current (pre ++ [x]) m b ps) :
    (∃ custom, x = .createDataManager b custom ∧ ps = custom.getD [] ∧ created pre = m) ∨
    (x = .setDataProviders m b ps ∧ m < created pre) ∨
    (Current pre m b ps ∧ ∀ b' ps', x ≠ .setDataProviders m b' ps') := by
  obtain ⟨before, call, after, he, h1, h2⟩ := h
  rcases List.eq_nil_or_concat after with rfl | ⟨after', y, rfl⟩
  · have := List.append_inj' he rfl
    obtain ⟨rfl, hx⟩ := this
    cases hx
    rcases h1 with h1 | h1
    · exact .inl h1
    · exact .inr (.inl h1)
  · rw [List.concat_eq_append, ← List.cons_append, ← List.append_assoc] at he
    obtain ⟨rfl, hx⟩ := List.append_inj' he rfl
    cases hx
    refine .inr (.inr ⟨⟨before, call, after', rfl, h1, fun b' ps' hm => h2 b' ps' (by simp [hm])⟩, ?_⟩)
    rintro b' ps' rfl
    exact h2 b' ps' (by simp)

theorem current_lt {calls : List Call} {m : Nat} {b : Bool} {ps : List Provider} (h : Current calls m b ps) :
    m < created calls := by
  obtain ⟨before, call, after, rfl, h1, _⟩ := h
  unfold created at *
  rw [List.countP_append]
  rcases h1 with ⟨custom, rfl, _, h1⟩ | ⟨rfl, h1⟩
  · rw [List.countP_cons_of_pos (by rfl)]; omega
  · omega

/-- The state of a session, in terms of the calls made. -/
structure Known (c : CrateData) (o : ServiceOptions) (calls : List Call) (s : Session) : Prop where
  service : s.service = ⟨⟨doesSupportMarkdown o.caps, latestCompletion calls, o.caseSensitive.getD false⟩,
    ⟨doesSupportMarkdown o.caps, latestHover calls, o.caseSensitive.getD false⟩, o.caseSensitive.getD false⟩
  count : s.managers.length = created calls
  current : ∀ m b ps, Current calls m b ps →
    s.managers[m]? = some (managerWith c (o.caseSensitive.getD false) b ps)

theorem setDataProviders_managerWith (c : CrateData) (cs b b' : Bool) (ps ps' : List Provider) :
    (managerWith c cs b ps).setDataProviders c.uni c.builtin b' ps' = managerWith c cs b' ps' := rfl

theorem current_exists {calls : List Call} {m : Nat} (h : m < created calls) : ∃ b ps, Current calls m b ps := by
  have key : ∀ (n : Nat) (calls : List Call), calls.length = n → m < created calls → ∃ b ps, Current calls m b ps := by
    intro n
    induction n with
    | zero =>
      intro calls hl h
      rw [List.length_eq_zero_iff.1 hl] at h
      simp [created] at h
    | succ n ih =>
      intro calls hl h
      rcases List.eq_nil_or_concat calls with rfl | ⟨pre, x, rfl⟩
      · simp at hl
      · rw [List.concat_eq_append] at h hl ⊢
        rw [List.length_append, List.length_singleton] at hl
        rw [created_snoc] at h
        by_cases hm : m < created pre
        · by_cases hx : ∃ b' ps', x = .setDataProviders m b' ps'
          · obtain ⟨b', ps', rfl⟩ := hx
            exact ⟨b', ps', pre, _, [], rfl, .inr ⟨rfl, hm⟩, by simp⟩
          · obtain ⟨b, ps, before, call, after, rfl, h1, h2⟩ := ih pre (by omega) hm
            refine ⟨b, ps, before, call, after ++ [x], by simp, h1, fun b' ps' hmem => ?_⟩
            rcases List.mem_append.1 hmem with h | h
            · exact h2 b' ps' h
            · exact hx ⟨b', ps', (List.mem_singleton.1 h).symm⟩
        · split at h
          · rename_i hx
            obtain ⟨b, custom, rfl⟩ : ∃ b custom, x = .createDataManager b custom := by
              cases x <;> first | exact ⟨_, _, rfl⟩ | cases hx
            exact ⟨b, custom.getD [], pre, _, [], rfl, .inl ⟨custom, rfl, rfl, by omega⟩, by simp⟩
          · omega
  exact key _ calls rfl h

theorem Known.after {c : CrateData} {o : ServiceOptions} {pre : List Call} {s : Session} (h : Known c o pre s) (x : Call) :
    Known c o (pre ++ [x]) (s.after c x) := by
  obtain ⟨h1, h2, h3⟩ := h
  cases x with
  | setCompletionParticipants ps =>
    refine ⟨?_, ?_, ?_⟩
    · simp [Session.after, h1, latestCompletion, latestHover]
    · rw [created_snoc]; simp [Session.after, h2, creates]
    · intro m b ps hc
      rcases current_snoc hc with ⟨_, h, _⟩ | ⟨h, _⟩ | ⟨h, _⟩
      · cases h
      · cases h
      · exact h3 m b ps h
  | setHoverParticipants ps =>
    refine ⟨?_, ?_, ?_⟩
    · simp [Session.after, h1, latestCompletion, latestHover]
    · rw [created_snoc]; simp [Session.after, h2, creates]
    · intro m b ps hc
      rcases current_snoc hc with ⟨_, h, _⟩ | ⟨h, _⟩ | ⟨h, _⟩
      · cases h
      · cases h
      · exact h3 m b ps h
  | createDataManager b0 custom0 =>
    refine ⟨?_, ?_, ?_⟩
    · simp [Session.after, h1, latestCompletion, latestHover]
    · rw [created_snoc]; simp [Session.after, h2, creates]
    · intro m b ps hc
      rcases current_snoc hc with ⟨custom, h, rfl, hm⟩ | ⟨h, _⟩ | ⟨h, _⟩
      · cases h
        subst hm
        simp only [Session.after, h1]
        rw [← h2, List.getElem?_append_right (Nat.le_refl _)]
        simp [managerWith, DataManager.new]
      · cases h
      · have := current_lt h
        show (s.managers ++ _)[m]? = _
        rw [List.getElem?_append_left (by omega)]
        exact h3 m b ps h
  | setDataProviders m0 b0 ps0 =>
    refine ⟨?_, ?_, ?_⟩
    · simp [Session.after, h1, latestCompletion, latestHover]
    · rw [created_snoc]; simp [Session.after, h2, creates]
    · intro m b ps hcur
      show (s.managers.modify m0 _)[m]? = _
      rw [List.getElem?_modify]
      rcases current_snoc hcur with ⟨_, h, _⟩ | ⟨h, hm⟩ | ⟨h, hne⟩
      · cases h
      · cases h
        obtain ⟨b', ps', hc⟩ := current_exists hm
        rw [h3 _ b' ps' hc]
        simp [setDataProviders_managerWith]
      · have : m0 ≠ m := by rintro rfl; exact hne _ _ rfl
        rw [h3 m b ps h]
        simp [this]
  | ask q =>
    refine ⟨?_, ?_, ?_⟩
    · simp [Session.after, h1, latestCompletion, latestHover]
    · rw [created_snoc]; simp [Session.after, h2, creates]
    · intro m b ps hc
      rcases current_snoc hc with ⟨_, h, _⟩ | ⟨h, _⟩ | ⟨h, _⟩
      · cases h
      · cases h
      · exact h3 m b ps h

theorem known_run (c : CrateData) (o : ServiceOptions) (calls : List Call) : Known c o calls (.run c o calls) := by
  have key : ∀ (l pre : List Call) (s : Session), Known c o pre s → Known c o (pre ++ l) (l.foldl (Session.after c) s) := by
    intro l
    induction l with
    | nil => intro pre s h; rw [List.append_nil]; exact h
    | cons x l ih =>
      intro pre s h
      have := ih (pre ++ [x]) _ (h.after x)
      rw [List.append_assoc] at this
      exact this
  refine key calls [] ⟨.new o, []⟩ ⟨rfl, rfl, ?_⟩
  rintro m b ps ⟨before, call, after, h, _⟩
  simp at h

/-- **C63.** In every session, after any calls: the participants set last are asked, every data manager has the providers
it was given last (and nothing of what it had before), and all parts work in the case mode of the options. -/
theorem C63_state (c : CrateData) (o : ServiceOptions) (calls : List Call) :
    (Session.run c o calls).service = ⟨⟨doesSupportMarkdown o.caps, latestCompletion calls, o.caseSensitive.getD false⟩,
      ⟨doesSupportMarkdown o.caps, latestHover calls, o.caseSensitive.getD false⟩, o.caseSensitive.getD false⟩ ∧
    (Session.run c o calls).managers.length = created calls ∧
    ∀ m, m < created calls → ∃ b ps, Current calls m b ps ∧
      (Session.run c o calls).managers[m]? =
        some ⟨(if b then [(DataProvider.new b!"html5" c.builtin (o.caseSensitive.getD false)).toProvider c.uni] else []) ++ ps,
          o.caseSensitive.getD false⟩ := by
  obtain ⟨h1, h2, h3⟩ := known_run c o calls
  refine ⟨h1, h2, fun m hm => ?_⟩
  obtain ⟨b, ps, hc⟩ := current_exists hm
  exact ⟨b, ps, hc, h3 m b ps hc⟩

/-- **C63.** Answers depend on nothing but the question, the options and what is set up: two sessions with the same
participants and the same providers in every data manager give the same answers, whatever else was called before. -/
theorem C63_same_setup_same_answers (c : CrateData) (o : ServiceOptions) (calls calls' : List Call) (q : Question)
    (h1 : latestCompletion calls = latestCompletion calls') (h2 : latestHover calls = latestHover calls')
    (h3 : created calls = created calls')
    (h4 : ∀ m b ps, Current calls m b ps → Current calls' m b ps) :
    (Session.run c o calls).answer c q = (Session.run c o calls').answer c q := by
  have k := known_run c o calls
  have k' := known_run c o calls'
  have e : Session.run c o calls = Session.run c o calls' := by
    have e1 : (Session.run c o calls).service = (Session.run c o calls').service := by
      rw [k.service, k'.service, h1, h2]
    have e2 : (Session.run c o calls).managers = (Session.run c o calls').managers := by
      apply List.ext_getElem?
      intro m
      by_cases hm : m < created calls
      · obtain ⟨b, ps, hc⟩ := current_exists hm
        rw [k.current m b ps hc, k'.current m b ps (h4 m b ps hc)]
      · rw [List.getElem?_eq_none (by have := k.count; omega), List.getElem?_eq_none (by have := k'.count; omega)]
    generalize Session.run c o calls = s at *
    generalize Session.run c o calls' = s' at *
    cases s; cases s'
    simp_all
  rw [e]

/-- **C63.** Questions leave no trace: the answer is the same as if no question had been asked before. -/
theorem C63_questions_change_nothing (c : CrateData) (o : ServiceOptions) (calls : List Call) (q : Question) :
    (Session.run c o calls).answer c q = (Session.run c o (calls.filter (fun x => !isQuestion x))).answer c q := by
  have key : ∀ (l : List Call) (s : Session),
      l.foldl (Session.after c) s = (l.filter (fun x => !isQuestion x)).foldl (Session.after c) s := by
    intro l
    induction l with
    | nil => intro s; rfl
    | cons x l ih =>
      intro s
      cases x with
      | ask q => rw [List.filter_cons_of_neg (by simp [isQuestion])]; exact ih s
      | _ => rw [List.filter_cons_of_pos (by simp [isQuestion])]; exact ih _
  unfold Session.run
  rw [key]

theorem run_snoc (c : CrateData) (o : ServiceOptions) (calls : List Call) (x : Call) :
    Session.run c o (calls ++ [x]) = (Session.run c o calls).after c x := by
  unfold Session.run; rw [List.foldl_append]; rfl

/-- **C63.** What one data manager is given does not affect questions that name another one, or none. -/
theorem C63_managers_independent (c : CrateData) (o : ServiceOptions) (calls : List Call) (m : Nat) (b : Bool)
    (ps : List Provider) (q : Question) (hq : managerOf q ≠ some m) :
    (Session.run c o (calls ++ [.setDataProviders m b ps])).answer c q = (Session.run c o calls).answer c q := by
  rw [run_snoc]
  have key : ∀ k, k ≠ m → ((Session.run c o calls).after c (.setDataProviders m b ps)).managers[k]? =
      (Session.run c o calls).managers[k]? := by
    intro k hk
    simp only [Session.after]
    rw [List.getElem?_modify]
    simp [hk.symm]
  cases q with
  | parse d k => simp only [Session.answer, key k (fun h => hq (congrArg some h))]; rfl
  | complete d p r s k => simp only [Session.answer, key k (fun h => hq (congrArg some h))]; rfl
  | tagComplete d p r k => simp only [Session.answer, key k (fun h => hq (congrArg some h))]; rfl
  | hover d p r s k => simp only [Session.answer, key k (fun h => hq (congrArg some h))]; rfl
  | links uri d r k => simp only [Session.answer, key k (fun h => hq (congrArg some h))]; rfl
  | folding d l k => simp only [Session.answer, key k (fun h => hq (congrArg some h))]; rfl
  | _ => rfl

/-- **C63.** Participants of hover are asked for hover only, participants of completion for completion only. -/
theorem C63_participants_independent (c : CrateData) (o : ServiceOptions) (calls : List Call) (q : Question) :
    (isHover q = false → ∀ ps,
      (Session.run c o (calls ++ [.setHoverParticipants ps])).answer c q = (Session.run c o calls).answer c q) ∧
    (isCompletion q = false → ∀ ps,
      (Session.run c o (calls ++ [.setCompletionParticipants ps])).answer c q = (Session.run c o calls).answer c q) := by
  refine ⟨fun h ps => ?_, fun h ps => ?_⟩ <;> rw [run_snoc] <;> cases q <;> first | rfl | cases h

/-- **C63.** The answer to a hover question, after any calls: the participants are those set last, the providers those that
the named manager was given last (behind the built-in one, if wanted), the case mode and markdown support are those of
the options, and documentation and references are shown unless the question says otherwise. -/
theorem C63_hover_setup (c : CrateData) (o : ServiceOptions) (calls : List Call) (m : Nat) (b : Bool)
    (ps : List Provider) (h : Current calls m b ps) (d : Document) (p : Pos) (roots : List Node)
    (options : Option (Bool × Bool)) :
    (Session.run c o calls).answer c (.hover d p roots options m) = some (.hover <$> doHover
      { uni := c.uni
        caseSensitive := o.caseSensitive.getD false
        supportsMarkdown := doesSupportMarkdown o.caps
        participants := (latestHover calls).map (fun part => part d roots p)
        languageId := d.languageId
        providers :=
          (if b then [(DataProvider.new b!"html5" c.builtin (o.caseSensitive.getD false)).toProvider c.uni] else []) ++ ps
        documentation := options.all (·.1)
        references := options.all (·.2)
        entities := c.entities } d.doc p roots) := by
  have k := known_run c o calls
  simp only [Session.answer, k.current m b ps h, k.service]
  cases options <;> rfl

/-- **C63.** The answer to a completion question, after any calls, in the same way. -/
theorem C63_completion_setup (c : CrateData) (o : ServiceOptions) (calls : List Call) (m : Nat) (b : Bool)
    (ps : List Provider) (h : Current calls m b ps) (d : Document) (p : Pos) (roots : List Node)
    (settings : Option CompletionConfig) :
    (Session.run c o calls).answer c (.complete d p roots settings m) =
      some (.items <$> doComplete (completionSetup c o calls b ps d p roots settings) d.doc p roots) ∧
    (Session.run c o calls).answer c (.tagComplete d p roots m) =
      some (.text <$> doTagComplete (completionSetup c o calls b ps d p roots none) d.doc p roots) ∧
    (Session.run c o calls).answer c (.quoteComplete d p roots settings) =
      some (.text <$> doQuoteComplete (completionSetup c o calls false [] d p roots settings) d.doc p roots) := by
  have k := known_run c o calls
  refine ⟨?_, ?_, by simp only [Session.answer, k.service]; rfl⟩
  · simp only [Session.answer, k.current m b ps h, k.service]
    rfl
  · simp only [Session.answer, k.current m b ps h, k.service]
    rfl

/-- A provider with one void element. -/
def voidProvider (name : Str) : Provider :=
  ⟨b!"custom", fun _ => true, [⟨name, none, [], none, some true⟩], fun _ _ => [], fun _ _ => []⟩

/-- Built-in data with the void element `br`. -/
def exCrate (u : Uni) : CrateData := ⟨u, ⟨some [⟨b!"br", none, [], none, some true⟩], none, none⟩, [], ⟨fun _ => true⟩⟩

/-- A session in which a data manager is created, asked and changed: the setup is the last one. -/
example (u : Uni) (d : Document) :
    let calls : List Call := [.createDataManager true none, .ask (.parse d 0),
      .setDataProviders 0 false [voidProvider b!"x"], .ask (.parse d 0)]
    created calls = 1 ∧ Current calls 0 false [voidProvider b!"x"] ∧ ¬ Current calls 0 true [] := by
  refine ⟨rfl, ⟨[.createDataManager true none, .ask (.parse d 0)], _, [.ask (.parse d 0)], rfl, .inr ⟨rfl, Nat.zero_lt_one⟩, by simp⟩, ?_⟩
  intro h
  have h1 := (known_run (exCrate u) ⟨none, none⟩ _).current _ _ _ h
  have h2 := (known_run (exCrate u) ⟨none, none⟩ [.createDataManager true none, .ask (.parse d 0),
      .setDataProviders 0 false [voidProvider b!"x"], .ask (.parse d 0)]).current 0 false [voidProvider b!"x"]
    ⟨[.createDataManager true none, .ask (.parse d 0)], _, [.ask (.parse d 0)], rfl, .inr ⟨rfl, Nat.zero_lt_one⟩, by simp⟩
  rw [h2] at h1
  have h3 := congrArg (fun x => x.map (fun m => m.providers.map (·.id))) h1
  have h4 : some [b!"custom"] = some [b!"html5"] := h3
  revert h4
  decide

/-- Answers change when the setup does: `<x>` is closed if it is void. -/
example : ((Session.run (exCrate exUni) ⟨none, none⟩ [.createDataManager true none]).answer (exCrate exUni)
      (.parse ⟨.ref b!"<x>", b!"html"⟩ 0)).any (fun r => returns r fun a => match a with
        | .tree roots => roots.map (·.closed) = [false]
        | _ => false) = true ∧
    ((Session.run (exCrate exUni) ⟨none, none⟩ [.createDataManager true none, .setDataProviders 0 true [voidProvider b!"x"]]).answer
      (exCrate exUni) (.parse ⟨.ref b!"<x>", b!"html"⟩ 0)).any (fun r => returns r fun a => match a with
        | .tree roots => roots.map (·.closed) = [true]
        | _ => false) = true := by
  constructor <;> decide +kernel

/-! ### C64 -/

/-- **C64.** The parser, completion and folding treat as void what the given data manager says. -/
theorem C64_void_from_manager (c : CrateData) (o : ServiceOptions) (calls : List Call) (m : Nat) (b : Bool)
    (ps : List Provider) (h : Current calls m b ps) (d : Document) (limit : Option Nat) :
    ∃ void : List Str,
      void.Perm ((if b then ((c.builtin.tags.getD []).filter (fun t => t.void = some true)).map (·.name) else []) ++
        (ps.filter (·.isApplicable d.languageId)).flatMap Spec.voidNames) ∧
      (Session.run c o calls).answer c (.parse d m) =
        some (.tree <$> parse c.uni (o.caseSensitive.getD false) void d.doc.text) ∧
      (Session.run c o calls).answer c (.folding d limit m) =
        some (.folds <$> getFoldingRanges c.uni (o.caseSensitive.getD false) void d.doc limit) := by
  have k := known_run c o calls
  refine ⟨(managerWith c (o.caseSensitive.getD false) b ps).getVoidElements d.languageId,
    C43_set_replaces c.uni c.builtin ⟨[], o.caseSensitive.getD false⟩ b ps d.languageId, ?_, ?_⟩
  · simp only [Session.answer, k.current m b ps h, k.service]
    rfl
  · simp only [Session.answer, k.current m b ps h, k.service]
    rfl

/-- **C64.** Formatting does not look at the data managers of the session: it gives the same answer in all sessions. -/
theorem C64_format_ignores_managers (c : CrateData) (o : ServiceOptions) (calls calls' : List Call) (d : Document)
    (r : Option Range) (fo : FormatOptions) :
    (Session.run c o calls).answer c (.format d r fo) = (Session.run c o calls').answer c (.format d r fo) := by
  simp only [Session.answer, (known_run c o calls).service, (known_run c o calls').service]

/-- **C64.** Formatting treats as void what the built-in data says, in all sessions. -/
theorem C64_format_builtin_void (c : CrateData) (o : ServiceOptions) :
    ∃ void : List Str,
      void.Perm (((c.builtin.tags.getD []).filter (fun t => t.void = some true)).map (·.name)) ∧
      ∀ (calls : List Call) (d : Document) (r : Option Range) (fo : FormatOptions),
        (Session.run c o calls).answer c (.format d r fo) =
          some (.edits <$> format c.uni (o.caseSensitive.getD false) void fo d.doc r) := by
  refine ⟨(managerWith c false true []).getVoidElements b!"html", ?_, fun calls d r fo => ?_⟩
  · have := C43_set_replaces c.uni c.builtin ⟨[], false⟩ true [] b!"html"
    rw [List.filter_nil, List.flatMap_nil, List.append_nil] at this
    exact this
  · simp only [Session.answer, (known_run c o calls).service]
    rfl

/-- **C64 fails** for formatting: a void element of a custom data provider is not known there, and what follows it is
lost. -/
theorem C64_format_fails_for_custom_void (u : Uni) :
    let s := Session.run (exCrate u) ⟨none, none⟩ [.createDataManager true (some [voidProvider b!"x"])]
    s.answer (exCrate u) (.parse ⟨.ref b!"<x><p></p>", b!"html"⟩ 0) =
      some (.ok (.tree [⟨some b!"x", 0, 3, [], true, some 3, none, []⟩, ⟨some b!"p", 3, 10, [], true, some 6, some 6, []⟩])) ∧
    s.answer (exCrate u) (.format ⟨.ref b!"<x><p></p>", b!"html"⟩ none .default) =
      some (.ok (.edits [⟨⟨⟨0, 0⟩, ⟨0, 10⟩⟩, b!"<x />"⟩])) := by
  constructor <;> krfl

end Html.Props
