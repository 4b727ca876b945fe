import Verif.Model.Actions
/-
internal/builder/lexer.go

The Go lexer walks byte positions `start ≤ pos` over `input`.  Here the state
holds `cur = input[start:pos]` and `rest = input[pos:]`.  The state-function
stack (lexer.go:49) is never pushed to anywhere in the package, so it is always
empty and is left out; error texts are left out.
-/
namespace Yot

/-- lexer.go:15-25 `lexemeType`. -/
inductive LexType where
  | error | identity | root | dotChild | undottedChild | bracketChild | eof
deriving DecidableEq, Repr

/-- lexer.go:31-35 `lexeme`. -/
structure Lexeme where
  typ : LexType
  val : Str
deriving DecidableEq, Repr

/-- lexer.go:41-53 `lexer` (the scanning position and the last emitted type). -/
structure Lexer where
  cur : Str
  rest : Str
  last : LexType
deriving DecidableEq, Repr

/-- The state functions (lexer.go:322 `lexPath`, 340 `lexRoot`, 370
`lexSubPath`). -/
inductive LState where
  | path | root | subPath
deriving DecidableEq, Repr

/-- Result of running one state function: lexer, lexemes sent to the channel,
next state (`none` = nil state function). (builder/lexer.go:39-54, 88-106) -/
structure Step where
  lexer : Lexer
  out : List Lexeme
  next : Option LState
deriving DecidableEq, Repr

/-- lexer.go:268-282 `emit`: send `input[start:pos]`, move `start` to `pos`. -/
def Lexer.emit (l : Lexer) (t : LexType) : Lexer × Lexeme :=
  ({ l with cur := [], last := t }, ⟨t, l.cur⟩)

/-- lexer.go:308-315 `errorf`: send an error lexeme and stop. -/
def Lexer.errorf (l : Lexer) : Step := ⟨l, [⟨.error, []⟩], none⟩

/-- Move `pos` over a prefix `tok` of `rest` whose remainder is `rest'`. (builder/lexer.go:122-140) -/
def Lexer.advance (l : Lexer) (tok rest' : Str) : Lexer :=
  { l with cur := l.cur ++ tok, rest := rest' }

/-- lexer.go:416-420: where a child name ends (end of input apart). -/
def isChildEnd (c : Char) : Bool :=
  c = '.' || c = '[' || c = ')' || c = ' ' || c = '&' || c = '|' || c = '=' ||
  c = '!' || c = '>' || c = '<' || c = '~' || c = '*'

/-- lexer.go:195-212 `consumeUntil` with the exceptions of handleChild: consumed
text and remainder. -/
def spanChild : Str → Str × Str
  | [] => ([], [])
  | c :: t => if isChildEnd c then ([], c :: t) else
      let r := spanChild t
      (c :: r.1, r.2)

/-- lexer.go:415-429 `handleChild`. -/
def handleChild (l : Lexer) (t : LexType) : Step :=
  let r := spanChild l.rest
  if r.1.isEmpty then l.errorf
  else
    let e := (l.advance r.1 r.2).emit t
    ⟨e.1, [e.2], some .subPath⟩

/-- lexer.go:147-159 / 174-191: the whitespace at the start of the text. -/
def spanSpace : Str → Str × Str
  | [] => ([], [])
  | c :: t => if isSpace c then
      let r := spanSpace t
      (c :: r.1, r.2)
    else ([], c :: t)

/-- lexer.go:143-171 `consumedWhitespaced(token)` for a one-character token:
consumed text and remainder, if the token is there. -/
def wsToken (tok : Char) (s : Str) : Option (Str × Str) :=
  let r := spanSpace s
  match r.2 with
  | c :: t => if c = tok then some (r.1 ++ [c], t) else none
  | [] => none

/-- lexer.go:233-259 `peekedWhitespaced("[", q)`. -/
def peekBracketQuote (q : Char) (s : Str) : Bool :=
  match wsToken '[' s with
  | some r => (wsToken q r.2).isSome
  | none => false

/-- lexer.go:349-368 `consumedEscapedString`: the text up to the closing quote
and the remainder starting with that quote; `none` is the error outcome
(unsupported escape or unmatched quote). -/
def escapedString (q : Char) : Str → Option (Str × Str)
  | [] => none
  | c :: t =>
    if c = q then some ([], c :: t)
    else if c = '\\' then
      match t with
      | d :: u =>
        if d = q ∨ d = '\\' then (escapedString q u).map (fun r => (c :: d :: r.1, r.2))
        else none
      | [] => none
    else (escapedString q t).map (fun r => (c :: r.1, r.2))

/-- lexer.go:391-402 `enquote`, which panics unless given a quote. -/
def enquoteOk (q : Char) : Bool := q = '\'' || q = '"'

/-- Outcome of the loop of handleBracket. (builder/lexer.go:431-462) -/
inductive BracketRes where
  | done (consumed rest : Str)
  | fail
  | panic
deriving DecidableEq, Repr

/-- lexer.go:434-453, the loop of `handleBracket` (fuel counts iterations). -/
def bracketLoop : Nat → Str → BracketRes
  | 0, _ => .panic
  | fuel + 1, s =>
    let w := spanSpace s
    match w.2 with
    | [] => .panic            -- `string(eof)`; enquote would panic
    | q :: t =>
      match escapedString q t with
      | none => if enquoteOk q then .fail else .panic
      | some (body, u) =>
        -- lexer.go:442 `l.consumed(quote)`: `u` starts with the quote
        let tok := w.1 ++ q :: body ++ u.take 1
        let u := u.drop 1
        match wsToken ',' u with
        | some (c, v) =>
          if (wsToken '\'' v).isSome || (wsToken '"' v).isSome then
            match bracketLoop fuel v with
            | .done x y => .done (tok ++ c ++ x) y
            | r => r
          else .fail
        | none => .done tok u

/-- lexer.go:431-462 `handleBracket`.  A panic is kept as a distinct outcome:
`none`. -/
def handleBracket (l : Lexer) : Option Step :=
  match wsToken '[' l.rest with
  | none => none
  | some (o, s) =>
    match bracketLoop (s.length + 1) s with
    | .panic => none
    | .fail => some l.errorf
    | .done x s' =>
      match wsToken ']' s' with
      | none => some l.errorf
      | some (c, s'') =>
        let e := (l.advance (o ++ x ++ c) s'').emit .bracketChild
        some ⟨e.1, [e.2], some .subPath⟩

/-- Emit the two final lexemes (lexer.go:324-327, 409-412). -/
def emitEnd (l : Lexer) : Step :=
  let e1 := l.emit .identity
  let e2 := e1.1.emit .eof
  ⟨e2.1, [e1.2, e2.2], none⟩

/-- lexer.go:370-389 `lexSubPath` (and 404-413 `handleEmpty`, 70-80 `pop`). -/
def lexSubPath (l : Lexer) : Option Step :=
  match l.rest with
  | ')' :: _ => some l.errorf
  | [] => some (emitEnd l)
  | '.' :: t => some (handleChild (l.advance ['.'] t) .dotChild)
  | _ =>
    if peekBracketQuote '\'' l.rest || peekBracketQuote '"' l.rest then handleBracket l
    else if l.last = .eof then some (handleChild l .undottedChild)
    else some l.errorf

/-- lexer.go:322-338 `lexPath`. -/
def lexPath (l : Lexer) : Step :=
  match l.rest with
  | [] => emitEnd l
  | '$' :: _ => ⟨l, [], some .root⟩
  | _ => ⟨l, [⟨.root, ['$']⟩], some .subPath⟩

/-- lexer.go:340-345 `lexRoot`. -/
def lexRoot (l : Lexer) : Step :=
  let e := (l.advance (l.rest.take 1) (l.rest.drop 1)).emit .root
  ⟨e.1, [e.2], some .subPath⟩

/-- Run one state function. (builder/lexer.go:322-462) -/
def lexStep (st : LState) (l : Lexer) : Option Step :=
  match st with
  | .path => some (lexPath l)
  | .root => some (lexRoot l)
  | .subPath => lexSubPath l

/-- lexer.go:56-67 `lex`. -/
def lexInit (input : Str) : Lexer := ⟨[], input, .eof⟩

/-- Outcome of lexing a whole input. (builder/lexer.go:56-106) -/
inductive LexRes where
  | done (ls : List Lexeme)
  | panic
  | outOfFuel
deriving DecidableEq, Repr

/-- lexer.go:88-103, `nextLexeme` called until the state function is nil: the
sequence of lexemes the parser can receive.  The lexer never looks at the parser,
so running it ahead of the parser changes nothing. -/
def lexRun : Nat → LState → Lexer → LexRes
  | 0, _, _ => .outOfFuel
  | fuel + 1, st, l =>
    match lexStep st l with
    | none => .panic
    | some s =>
      match s.next with
      | none => .done s.out
      | some st' =>
        match lexRun fuel st' s.lexer with
        | .done ls => .done (s.out ++ ls)
        | r => r

/-- All lexemes of an input; `length + 3` steps always suffice (proved). (builder/lexer.go:56-106) -/
def lexAll (input : Str) : LexRes := lexRun (input.length + 3) .path (lexInit input)

/-- The lexer as the parser sees it: the buffered channel `items`, the current
state function and the scanner (lexer.go:41-53). -/
structure LexChan where
  buf : List Lexeme
  st : Option LState
  lexer : Lexer

/-- lexer.go:28 `chanLen`. -/
def chanLen : Nat := 2

/-- lexer.go:88-103 `nextLexeme`: receive from the channel if it holds something,
else run the state function and try again.  The state function runs in the same
goroutine, so a send to the full channel never returns: `none`, as is a panic.
`fuel` counts rounds of the loop. -/
def nextLexeme : Nat → LexChan → Option (Lexeme × LexChan)
  | fuel, ch =>
    match ch.buf with
    | x :: r => some (x, { ch with buf := r })
    | [] =>
      match ch.st with
      | none => some (⟨.eof, []⟩, ch)
      | some st =>
        match fuel with
        | 0 => none
        | fuel + 1 =>
          match lexStep st ch.lexer with
          | none => none
          | some s => if s.out.length ≤ chanLen then nextLexeme fuel ⟨s.out, s.next, s.lexer⟩ else none

/-- Receive `n` lexemes. (builder/path.go:63-118) -/
def receive : Nat → LexChan → Option (List Lexeme)
  | 0, _ => some []
  | n + 1, ch =>
    match nextLexeme 3 ch with
    | none => none
    | some (x, ch') => (receive n ch').map (x :: ·)

/-- lexer.go:56-67 `lex`, with its channel. -/
def lexChan (input : Str) : LexChan := ⟨[], some .path, lexInit input⟩

end Yot
