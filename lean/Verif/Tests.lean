import Verif.Model.Parser

/-!
# Sanity checks of the model against the repository's own tests

These are tests of the translation, not proofs: `#guard` evaluates the model on the
literals of `/repo/tests/parse.rs` and compares with the expected values there.
-/

namespace Html.Tests

/-- A Unicode table that treats every non-ASCII character as a letter. -/
def uni0 : Uni := ⟨fun _ => true, id⟩

def void0 : List Str :=
  [b!"area", b!"base", b!"br", b!"col", b!"embed", b!"hr", b!"img", b!"input", b!"link",
   b!"meta", b!"param", b!"source", b!"track", b!"wbr"]

inductive J
  | n (tag : Str) (start stop : Nat) (ets : Option Nat) (closed : Bool) (ch : List J)
deriving BEq, Repr

mutual
def toJ : Node → J
  | ⟨tag, start, stop, ch, closed, _, ets, _⟩ => .n (tag.getD []) start stop ets closed (toJs ch)
def toJs : List Node → List J
  | [] => []
  | n :: t => toJ n :: toJs t
end

def parse0 (s : Str) : List Node := match parse uni0 false void0 s with
  | .ok r => r
  | .error _ => []

def doc (s : Str) (e : List J) : Bool :=
  match parse uni0 false void0 s with
  | .ok r => toJs r == e
  | .error _ => false

#guard doc b!"<html></html>" [.n b!"html" 0 13 (some 6) true []]
#guard doc b!"<html><body></body></html>"
  [.n b!"html" 0 26 (some 19) true [.n b!"body" 6 19 (some 12) true []]]
#guard doc b!"<html><head></head><body></body></html>"
  [.n b!"html" 0 39 (some 32) true
    [.n b!"head" 6 19 (some 12) true [], .n b!"body" 19 32 (some 25) true []]]
#guard doc b!"<br/>" [.n b!"br" 0 5 none true []]
#guard doc b!"<div><br/><span></span></div>"
  [.n b!"div" 0 29 (some 23) true [.n b!"br" 5 10 none true [], .n b!"span" 10 23 (some 16) true []]]
#guard doc b!"<meta>" [.n b!"meta" 0 6 none true []]
#guard doc b!"<div><input type=\"button\"><span><br><br></span></div>"
  [.n b!"div" 0 53 (some 47) true
    [.n b!"input" 5 26 none true [],
     .n b!"span" 26 47 (some 40) true [.n b!"br" 32 36 none true [], .n b!"br" 36 40 none true []]]]
#guard doc b!"</meta>" []
#guard doc b!"<div></div></div>" [.n b!"div" 0 11 (some 5) true []]
#guard doc b!"<div><div></div>"
  [.n b!"div" 0 16 none false [.n b!"div" 5 16 (some 10) true []]]
#guard doc b!"<title><div></title>"
  [.n b!"title" 0 20 (some 12) true [.n b!"div" 7 12 none false []]]
#guard doc b!"<h1><div><span></h1>"
  [.n b!"h1" 0 20 (some 15) true [.n b!"div" 4 15 none false [.n b!"span" 9 15 none false []]]]
#guard doc b!"<div><div</div>" [.n b!"div" 0 15 (some 9) true [.n b!"div" 5 9 none false []]]
#guard doc b!"<div><div\n</div>" [.n b!"div" 0 16 (some 10) true [.n b!"div" 5 10 none false []]]
#guard doc b!"<div><div></div</div>"
  [.n b!"div" 0 21 (some 15) true [.n b!"div" 5 15 (some 10) true []]]
#guard doc b!"<script>/** 注释 */</script>" [.n b!"script" 0 30 (some 21) true []]
#guard doc b!"<style>\n// 注释\n</style>" [.n b!"style" 0 26 (some 18) true []]

def before (s : Str) (o : Nat) : Option Str := (findNodeBefore (parse0 s) o).map (·.1.tag.getD [])

def in1 : Str := b!"<div><input type=\"button\"><span><br><hr></span></div>"
#guard [0, 1, 5, 6, 25, 26, 27, 32, 33, 36, 37, 40, 41, 42, 47, 48, 52, 53].map (before in1) ==
  [none, some b!"div", some b!"div", some b!"input", some b!"input", some b!"input", some b!"span",
   some b!"span", some b!"br", some b!"br", some b!"hr", some b!"hr", some b!"hr", some b!"hr",
   some b!"span", some b!"span", some b!"span", some b!"div"]
#guard [15, 18, 21].map (before b!"<div><span><br></div>") == [some b!"br", some b!"br", some b!"div"]

def tokTy (s : Str) (o : Nat) : TT :=
  match findNodeAt (parse0 s) o with
  | some (n, _) => (match n.findTokenType o with | .ok t => t | .error _ => .EOS)
  | none => .Unknown

def in2 : Str := b!"<div><input type=\"button\"/><span>content</span></div>"
#guard [0, 1, 3, 4, 5, 6, 10, 11, 24, 25, 26, 27, 28, 31, 32, 33, 39, 40, 41, 42, 45, 46, 47, 48, 49,
    51, 52].map (tokTy in2) ==
  [.StartTagOpen, .StartTag, .StartTag, .StartTagClose, .StartTagOpen, .StartTag, .StartTag, .Unknown,
   .Unknown, .StartTagSelfClose, .StartTagSelfClose, .StartTagOpen, .StartTag, .StartTag,
   .StartTagClose, .Content, .Content, .EndTagOpen, .EndTagOpen, .EndTag, .EndTag, .EndTagClose,
   .EndTagOpen, .EndTagOpen, .EndTag, .EndTag, .EndTagClose]

def attrs (s : Str) : List (List (Str × Attr)) := (parse0 s).map (·.attributes)

#guard attrs b!"<div class=\"these are my-classes\" id=\"test\"></div>" ==
  [[(b!"class", ⟨some b!"\"these are my-classes\"", 5⟩), (b!"id", ⟨some b!"\"test\"", 34⟩)]]
#guard attrs b!"<div checked id=\"test\"></div>" ==
  [[(b!"checked", ⟨none, 5⟩), (b!"id", ⟨some b!"\"test\"", 13⟩)]]
#guard attrs b!"<div id=test\"></div>" == [[(b!"id", ⟨some b!"test\"", 5⟩)]]
#guard attrs b!"<div checked= id=\"test\"></div>" ==
  [[(b!"checked", ⟨some [], 5⟩), (b!"id", ⟨some b!"\"test\"", 14⟩)]]
#guard attrs b!"<div = =\"abc\" id=test\"></div>" == [[(b!"id", ⟨some b!"test\"", 14⟩)]]

end Html.Tests
