import Verif.Model.Str
/-
Specification of format markers, written without the model: what a template
means, as a list of pieces.
-/
namespace Yot.Spec

/-- The marker letters of the documentation: value, key, line, foot, head. -/
def letters : List Char := ['v', 'k', 'l', 'f', 'h']

/-- The text contains none of `%v %k %l %f %h`. -/
def NoMarker (s : Str) : Prop := ∀ c ∈ letters, ¬ (['%', c] <:+: s)

instance (s : Str) : Decidable (NoMarker s) := by unfold NoMarker; infer_instance

/-- A template is made of plain characters, markers, and markers followed by a
sed command in braces. -/
inductive Piece where
  | text (c : Char)
  | marker (letter : Char)
  | command (letter : Char) (cmd : Str)
deriving DecidableEq, Repr

/-- How a piece is written. -/
def Piece.source : Piece → Str
  | .text c => [c]
  | .marker l => ['%', l]
  | .command l cmd => '%' :: l :: '{' :: cmd ++ ['}']

/-- What a template says as a string. -/
def source (ps : List Piece) : Str := ps.flatMap Piece.source

/-- What a piece stands for, given the original texts (`orig`, by letter) and a
sed engine (`sed cmd text`).  An empty command `{}` leaves the text alone. -/
def Piece.meaning (orig : Char → Str) (sed : Str → Str → Str) : Piece → Str
  | .text c => [c]
  | .marker l => orig l
  | .command l cmd => if cmd = [] then orig l else sed cmd (orig l)

/-- What a template stands for. -/
def meaning (orig : Char → Str) (sed : Str → Str → Str) (ps : List Piece) : Str :=
  ps.flatMap (Piece.meaning orig sed)

/-- The marker or command piece at the start of a text, if there is one: `%`,
a marker letter, and, if what follows has the form `{...}` without newline and
`}` inside, that command too. -/
def pieceAt : Str → Option Piece
  | '%' :: l :: t =>
    if l ∈ letters then
      match t with
      | '{' :: u =>
        let cmd := u.takeWhile (fun d => d ≠ '}' && d ≠ '\n')
        if u[cmd.length]? = some '}' then some (.command l cmd) else some (.marker l)
      | _ => some (.marker l)
    else none
  | _ => none

/-- Reading a template from left to right (the first argument counts characters
of the last piece still to be passed over). -/
def parseGo : Nat → Str → List Piece
  | _, [] => []
  | k + 1, _ :: t => parseGo k t
  | 0, c :: t =>
    match pieceAt (c :: t) with
    | some p => p :: parseGo (p.source.length - 1) t
    | none => .text c :: parseGo 0 t

/-- The pieces of a text. -/
def parse (s : Str) : List Piece := parseGo 0 s

/-- Text without one trailing newline, if it has any. -/
def dropLastNewline (s : Str) : Str := if s.getLast? = some '\n' then s.dropLast else s

/-- Text without one leading newline, if it has any. -/
def dropFirstNewline : Str → Str
  | [] => []
  | c :: t => if c = '\n' then t else c :: t

/-- What a sed command makes of a text, for a sed engine that can `compile` a
command or not and whose `run` returns its output and whether it succeeded: the
text itself if the command does not compile, else the output, minus one trailing
and one leading newline if the engine succeeded. -/
def sedResult (compile : Str → Bool) (run : Str → Str → Str × Bool) (cmd text : Str) : Str :=
  if compile cmd then
    if (run cmd text).2 then dropFirstNewline (dropLastNewline (run cmd text).1)
    else (run cmd text).1
  else text

/-- A comment without its leading `#`. -/
def uncomment : Str → Str
  | [] => []
  | c :: t => if c = '#' then t else c :: t

/-- The original texts by marker letter. -/
def originals (value key line head foot : Str) (l : Char) : Str :=
  if l = 'v' then value else if l = 'k' then key else if l = 'l' then uncomment line
  else if l = 'h' then uncomment head else if l = 'f' then uncomment foot else []

/-- The text without the occurrences of `%l`. -/
def without (l : Char) : Str → Str
  | [] => []
  | [c] => [c]
  | c :: d :: t => if c = '%' ∧ d = l then without l t else c :: without l (d :: t)

/-- The text without marker text: first every `%v` is dropped, then every `%l`, `%h`,
`%f`, `%k`. -/
def bare (s : Str) : Str := without 'k' (without 'f' (without 'h' (without 'l' (without 'v' s))))

/-- The marker letter of a piece, if it is one. -/
def Piece.letter? : Piece → Option Char
  | .text _ => none
  | .marker l => some l
  | .command l _ => some l

/-- No marker of the template is also written by the text produced before it:
when a marker `%l` is reached, what the earlier pieces stand for does not
contain `%l`. -/
def Safe (orig : Char → Str) (sed : Str → Str → Str) (ps : List Piece) : Prop :=
  ∀ a p b l, ps = a ++ p :: b → p.letter? = some l → ¬ (['%', l] <:+: meaning orig sed a)

end Yot.Spec
