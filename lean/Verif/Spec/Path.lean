import Verif.Model.Builder
import Verif.Spec.Tree
/-
Specification of plain paths: which texts are paths of child names, and what they
denote.
-/
namespace Yot.Spec

/-- The characters that cannot occur in an unquoted child name. -/
def specialChars : Str := c!".[) &|=!><~*"

/-- An unquoted child name. -/
def NameText (n : Str) : Prop := n ≠ [] ∧ ∀ c ∈ n, c ∉ specialChars

/-- The white space characters of Unicode. -/
def whiteSpace : Str :=
  ['\t', '\n', '\u000b', '\u000c', '\r', ' ', '\u0085', '\u00a0', '\u1680', '\u2000', '\u2001', '\u2002', '\u2003', '\u2004',
    '\u2005', '\u2006', '\u2007', '\u2008', '\u2009', '\u200a', '\u2028', '\u2029', '\u202f', '\u205f', '\u3000']

/-- White space. -/
def Space (s : Str) : Prop := ∀ c ∈ s, c ∈ whiteSpace

/-- The inside of a quoted name: any characters, the quote and the backslash
escaped by a backslash. -/
inductive QuotedBody (q : Char) : Str → Prop
  | nil : QuotedBody q []
  | plain (c : Char) (t : Str) : c ≠ q → c ≠ '\\' → QuotedBody q t → QuotedBody q (c :: t)
  | escaped (c : Char) (t : Str) : c = q ∨ c = '\\' → QuotedBody q t → QuotedBody q ('\\' :: c :: t)

/-- A name in single or double quotes. -/
def QuotedName (t : Str) : Prop :=
  ∃ q body, (q = '\'' ∨ q = '"') ∧ QuotedBody q body ∧ t = q :: (body ++ [q])

/-- One or more quoted names separated by commas. -/
inductive QuotedList : Str → Prop
  | one (a t : Str) : Space a → QuotedName t → QuotedList (a ++ t)
  | more (a t b r : Str) : Space a → QuotedName t → Space b → QuotedList r →
      QuotedList (a ++ t ++ b ++ ',' :: r)

/-- A bracketed segment `['...', ...]`. -/
def BracketSegment (t : Str) : Prop :=
  ∃ a r b, Space a ∧ QuotedList r ∧ Space b ∧ t = a ++ '[' :: (r ++ b ++ [']'])

/-- A sequence of segments: `.name` or `['...']`. -/
inductive PlainTail : Str → Prop
  | nil : PlainTail []
  | dot (n r : Str) : NameText n → PlainTail r → PlainTail ('.' :: (n ++ r))
  | bracket (t r : Str) : BracketSegment t → PlainTail r → PlainTail (t ++ r)

/-- A plain path: `$` and segments, or segments alone, in which case the first
one may lack its dot. -/
def PlainPath (s : Str) : Prop :=
  (∃ r, s = '$' :: r ∧ PlainTail r) ∨
  (s.head? ≠ some '$' ∧ (PlainTail s ∨ ∃ n r, s = n ++ r ∧ NameText n ∧ PlainTail r))

/-- A name that means itself when written after a dot. -/
def PlainName (n : Str) : Prop := NameText n ∧ '\\' ∉ n

/-- `n1.n2...nk`. -/
def dotted : List Str → Str
  | [] => []
  | [n] => n
  | n :: ns => n ++ '.' :: dotted ns

/-- Nested single-key mappings with an empty leaf. -/
def nested : List Str → Node
  | [] => .mk { kind := .scalar } []
  | n :: ns => .mk { kind := .mapping, nilc := false } [.mk { kind := .scalar, value := n } [], nested ns]

/-- A document. -/
def inDocument (n : Node) : Node := .mk { kind := .document, nilc := false } [n]

/-- A name as written between quotes. -/
def escape (q : Char) (n : Str) : Str :=
  n.flatMap (fun c => if c = q ∨ c = '\\' then ['\\', c] else [c])

/-- The segment `['name']` (or `["name"]`). -/
def bracketed (q : Char) (n : Str) : Str := '[' :: q :: (escape q n ++ [q, ']'])

/-- One step of a written path. -/
inductive Segment where
  /-- `.name` -/
  | dot (n : Str)
  /-- `['name']`, with the quote character -/
  | quoted (q : Char) (n : Str)
deriving DecidableEq

/-- How a step is written. -/
def Segment.text : Segment → Str
  | .dot n => '.' :: n
  | .quoted q n => bracketed q n

/-- The key a step stands for. -/
def Segment.name : Segment → Str
  | .dot n => n
  | .quoted _ n => n

/-- The quote character that is not `q`. -/
def otherQuote (q : Char) : Char := if q = '"' then '\'' else '"'

/-- How many characters `o` of the text do not directly follow a backslash (`p` is the
character before the text). -/
def looseQuotes (o : Char) : Option Char → Str → Nat
  | _, [] => 0
  | p, c :: t => (if c = o ∧ p ≠ some '\\' then 1 else 0) + looseQuotes o (some c) t

/-- The name `n` between the quotes `q` has, between two of its commas, an odd number of the other
kind of quotes (not counting those after a backslash). -/
def Splits (q : Char) (n : Str) : Prop :=
  ∃ a m b, n = a ++ ',' :: (m ++ ',' :: b) ∧ ',' ∉ m ∧ looseQuotes (otherQuote q) none m % 2 = 1

/-- A step in proper notation: after a dot, a plain name; in quotes, any name. -/
def Segment.Written : Segment → Prop
  | .dot n => PlainName n
  | .quoted q _ => q = '\'' ∨ q = '"'

/-- A step whose name may be written so. -/
def Segment.Ok (s : Segment) : Prop :=
  s.Written ∧ match s with
    | .dot _ => True
    | .quoted q n => ¬ Splits q n

/-- A bracket with several names. -/
def bracketedList (q : Char) (ns : List Str) : Str :=
  '[' :: (joinWith ',' (ns.map fun n => q :: (n ++ [q])) ++ [']'])

/-- A mapping from each name to the same content. -/
def mappingOf (names : List Str) (sub : Node) : Node :=
  .mk { kind := .mapping, nilc := false } (names.flatMap fun n => [.mk { kind := .scalar, value := n } [], sub])

end Yot.Spec
