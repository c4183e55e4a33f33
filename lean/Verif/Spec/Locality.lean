import Verif.Model.Parser
import Verif.Spec.Tokens

/-!
# Specification vocabulary for texts that are put together

Definitions used in the statements about tokens and nodes of a text in front of which,
or behind which, there is more text.
-/

namespace Html

/-- The token found `k` bytes further on. -/
def Tok.shift (k : Nat) (t : Tok) : Tok := { t with offset := t.offset + k, stop := t.stop + k }

/-- The attributes found `k` bytes further on. -/
def shiftAttrs (k : Nat) (m : List (Str × Attr)) : List (Str × Attr) :=
  m.map fun a => (a.1, ⟨a.2.value, a.2.offset + k⟩)

mutual
/-- The node found `k` bytes further on: every offset in it is moved, nothing else changes. -/
def Node.shift (k : Nat) : Node → Node
  | ⟨tag, start, stop, children, closed, startTagEnd, endTagStart, attributes⟩ =>
    ⟨tag, start + k, stop + k, Node.shifts k children, closed, startTagEnd.map (· + k), endTagStart.map (· + k),
      shiftAttrs k attributes⟩
/-- The nodes found `k` bytes further on. -/
def Node.shifts (k : Nat) : List Node → List Node
  | [] => []
  | n :: l => n.shift k :: Node.shifts k l
end

/-- Tokens that end with a `>`: those of tags, comments and doctypes. -/
def isEndTT : TT → Bool
  | .EndCommentTag | .EndDoctypeTag | .EndTagClose | .StartTagClose | .StartTagSelfClose => true
  | _ => false

/-- The scan of a text in UTF-8, from offset `o` and state `st` on, ends with the `>` (so not with an empty token) of a tag, a
comment or a doctype; `t` is the last token and `i` are those in front of it. -/
structure EndsBracket (c : Cfg) (o : Nat) (st : SS) (i : List Tok) (t : Tok) : Prop where
  utf8 : ∃ cps, Spec.Utf8 cps c.src
  toks : tokens c (.new o st) = .ok (i ++ [t])
  kind : isEndTT t.type = true
  nonempty : t.offset < t.stop

/-- The text ends with the `>` of a tag, a comment or a doctype, outside raw text, and leaves no element open. -/
structure ClosedText (u : Uni) (cs : Bool) (void : List Str) (a : Str) (roots : List Node) : Prop where
  tree : parse u cs void a = .ok roots
  last : ∃ i t, EndsBracket (parserCfg u cs a) 0 .WithinContent i t ∧ t.state = .WithinContent
  closed : ∀ n ∈ roots, n.closed = true

end Html
