import Verif.Props.Service
import Verif.Proof.Terminates

/-!
# Every operation comes to an end (C93)
-/

namespace Html.Props
open Html Spec

/-- **C93.** No question to the service, whatever was called before, whatever text, tree, position and options are given, is
still without an answer (or panic) when a loop has had its number of rounds, which is at most twice the length of the text and
two more.  The function of the client that resolves links has to come to an end itself. -/
theorem C93_every_question_ends (c : CrateData) (o : ServiceOptions) (calls : List Call) (q : Question)
    (hr : ∀ uri d f m, q = .links uri d f m → ∀ a b, f a b ≠ .error .fuel) :
    (Session.run c o calls).answer c q ≠ some (.error .fuel) :=
  answer_terminates c _ q hr

/-- Both answers and panics occur: the hypothesis is met by questions that are answered and by questions that panic. -/
example : ((Session.run (exCrate exUni) ⟨none, none⟩ [.createDataManager true none]).answer (exCrate exUni)
      (.links b!"file:///a" ⟨.ref b!"<a href=b>", b!"html"⟩ (fun _ _ => .ok (some b!"file:///b")) 0)).any (fun r => returns r fun a => match a with
        | .links ls => ls.length = 1
        | _ => false) = true ∧
    ((Session.run (exCrate exUni) ⟨none, none⟩ [.createDataManager true none]).answer (exCrate exUni)
      (.links b!"file:///a" ⟨.ref b!"<a href=b>", b!"html"⟩ (fun _ _ => .error .unwrap) 0)).any (fun r => match r with | .error .unwrap => true | _ => false) = true := by
  constructor <;> decide +kernel

/-- **C93.** The tokens of a text are at most twice as many as its remaining bytes. -/
theorem C93_number_of_tokens (c : Cfg) (s : Sc) (ts : List Tok) (h : tokens c s = .ok ts) :
    ts.length ≤ 2 * (c.src.length - s.pos) := by
  have key : ∀ (f : Nat) (s : Sc) (ts : List Tok), tokensF c f s = .ok ts → ts.length ≤ mu c s := by
    intro f
    induction f with
    | zero => intro s ts h; exact nomatch h
    | succ f ih =>
      intro s ts h
      unfold tokensF at h
      cases h1 : scan c s with
      | error e => rw [h1] at h; exact nomatch h
      | ok s1 =>
        rw [h1] at h
        replace h : (if s1.tokenType = .EOS then _ else _) = Except.ok ts := h
        split at h
        · cases h
          exact Nat.zero_le _
        · rename_i hne
          have hlt := (scan_step h1).mu_lt hne
          cases h2 : tokensF c f s1 with
          | error e => rw [h2] at h; exact nomatch h
          | ok r =>
            rw [h2] at h
            cases h
            have := ih s1 r h2
            simp only [List.length_cons]
            omega
  have := key _ _ _ h
  have : mu c s ≤ 2 * (c.src.length - s.pos) := by
    unfold mu
    split <;> omega
  omega

/-- `<a` has two tokens, one for each byte. -/
example : returns (tokens (exCfg b!"<a") (.new 0 .WithinContent)) (fun ts => ts.length = 2) = true := by decide +kernel

end Html.Props
