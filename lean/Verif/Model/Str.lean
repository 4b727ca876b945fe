/-
Go strings and the few functions of package `strings` that yot uses.

A Go `string` holding valid UTF-8 is modelled as the list of its characters.
Every operation below inspects and moves whole characters, so for valid UTF-8
it computes the same thing as the byte-wise Go function; invalid UTF-8 is out of
scope.  These are standard-library functions, specified from their documentation.
-/
namespace Yot

/-- A Go string. (overlay.go:13-24) -/
abbrev Str := List Char

/-- `c!"abc"` is the literal `['a','b','c']` (reduces in the kernel). -/
syntax:max (name := chars) "c!" noWs str : term
macro_rules
  | `(c!$s:str) => do
      let cs := s.getString.toList
      let elems := cs.map (fun c => Lean.Syntax.mkCharLit c)
      `(([$(elems.toArray),*] : Str))

/-- `strings.HasPrefix(s, p)`. (builder/lexer.go:161-304) -/
def hasPrefix (p s : Str) : Bool := p.isPrefixOf s

/-- `strings.TrimPrefix(s, p)`. (merge.go:141-143, 173-175) -/
def trimPrefix (p s : Str) : Str := if hasPrefix p s then s.drop p.length else s

/-- `strings.TrimSuffix(s, p)`. (format.go:116) -/
def trimSuffix (p s : Str) : Str :=
  if p.isSuffixOf s then s.take (s.length - p.length) else s

/-- `strings.Contains(s, sub)`. (markers.go:31) -/
def containsSub (sub : Str) : Str → Bool
  | [] => sub.isEmpty
  | c :: t => hasPrefix sub (c :: t) || containsSub sub t

/-- `strings.Replace(s, old, new, 1)` for non-empty `old`. (format.go:98) -/
def replaceFirst (old new : Str) : Str → Str
  | [] => []
  | c :: t =>
    if hasPrefix old (c :: t) then new ++ (c :: t).drop old.length
    else c :: replaceFirst old new t

/-- Helper of `removeAll`: `skip` characters of an already matched occurrence
remain to be dropped. (format.go:49) -/
def removeAllGo (old : Str) : Nat → Str → Str
  | _, [] => []
  | k + 1, _ :: t => removeAllGo old k t
  | 0, c :: t =>
    if hasPrefix old (c :: t) then removeAllGo old (old.length - 1) t
    else c :: removeAllGo old 0 t

/-- `strings.ReplaceAll(s, old, "")` for non-empty `old`: one left-to-right pass
over non-overlapping occurrences. (format.go:49) -/
def removeAll (old s : Str) : Str := removeAllGo old 0 s

/-- `unicode.ToLower` as far as it can yield an ASCII letter: ASCII upper case,
U+0130 (→ i) and U+212A (→ k).  Simplification: every other character is left
alone; Go may map it to another non-ASCII character, which no comparison in yot
can tell apart from the original (all tables are ASCII). (action.go:54, 117) -/
def goLower (c : Char) : Char :=
  if c = '\u0130' then 'i'
  else if c = '\u212a' then 'k'
  else c.toLower

/-- `strings.ToLower`. (action.go:54, 117, style.go:90) -/
def toLowerStr (s : Str) : Str := s.map goLower

/-- `unicode.IsSpace`. (builder/lexer.go:154, 183) -/
def isSpace (c : Char) : Bool :=
  c = '\t' || c = '\n' || c = '\u000b' || c = '\u000c' || c = '\r' || c = ' ' ||
  c = '\u0085' || c = '\u00a0' || c = '\u1680' ||
  ('\u2000' ≤ c && c ≤ '\u200a') || c = '\u2028' || c = '\u2029' ||
  c = '\u202f' || c = '\u205f' || c = '\u3000'

/-- `strings.TrimSpace`. (builder/path.go:110-112, 238) -/
def trimSpace (s : Str) : Str :=
  ((s.dropWhile isSpace).reverse.dropWhile isSpace).reverse

/-- `strings.Split(s, string(sep))` for a one-character separator. (builder/path.go:208, style.go:90) -/
def splitOn (sep : Char) : Str → List Str
  | [] => [[]]
  | c :: t =>
    if c = sep then [] :: splitOn sep t
    else match splitOn sep t with
      | [] => [[c]]
      | h :: r => (c :: h) :: r

/-- `strings.Join(xs, string(sep))`. (query.go:81) -/
def joinWith (sep : Char) : List Str → Str
  | [] => []
  | [x] => x
  | x :: y :: r => x ++ sep :: joinWith sep (y :: r)

/-- `strings.Trim(s, cutset)`. (style.go:90) -/
def trimSet (cut : Str) (s : Str) : Str :=
  ((s.dropWhile (cut.contains ·)).reverse.dropWhile (cut.contains ·)).reverse

/-- Outcome of a Go call that may return an error or panic at run time. (merge.go:22-36) -/
inductive Res (ε α : Type) where
  | ok (a : α)
  | err (e : ε)
  | panic
deriving DecidableEq, Repr

namespace Res
variable {ε α β : Type}

/-- Sequencing: `if err != nil { return err }`; a panic propagates. (merge.go:27-33) -/
@[inline] def bind (x : Res ε α) (f : α → Res ε β) : Res ε β :=
  match x with
  | ok a => f a
  | err e => err e
  | panic => panic

instance : Monad (Res ε) where
  pure := ok
  bind := bind

@[simp] theorem bind_ok (a : α) (f : α → Res ε β) : (Res.ok a >>= f) = f a := rfl
@[simp] theorem bind_err (e : ε) (f : α → Res ε β) : ((Res.err e : Res ε α) >>= f) = .err e := rfl
@[simp] theorem bind_panic (f : α → Res ε β) : ((Res.panic : Res ε α) >>= f) = .panic := rfl
@[simp] theorem pure_eq (a : α) : (pure a : Res ε α) = .ok a := rfl

instance : LawfulMonad (Res ε) := LawfulMonad.mk' (Res ε)
  (id_map := fun x => by cases x <;> rfl)
  (pure_bind := fun _ _ => rfl)
  (bind_assoc := fun x _ _ => by cases x <;> rfl)

theorem bind_eq_ok {x : Res ε α} {f : α → Res ε β} {b : β} :
    (x >>= f) = .ok b ↔ ∃ a, x = .ok a ∧ f a = .ok b := by
  cases x <;> simp

end Res
end Yot
