import Verif.Lemmas.Lexer
/-
C32: the path lexer.
-/
namespace Yot

/-- C32: lexing any input ends, without a panic; unless it ends in an error
lexeme, the texts of the lexemes concatenate to the whole input (to `$` and the
input, if the leading `$` was left out). -/
theorem C32_lexing_is_total_and_lossless (input : Str) :
    ∃ ls, lexAll input = .done ls ∧
      ((∃ e ∈ ls, e.typ = .error) ∨ ls.flatMap (fun e => e.val) = input ∨
        ls.flatMap (fun e => e.val) = '$' :: input) :=
  lexAll_done input

/-- What a channel state has left to deliver. -/
def Remaining (ch : LexChan) (ls : List Lexeme) : Prop :=
  match ch.st with
  | none => ls = ch.buf
  | some st => ∃ fuel rs, lexRun fuel st ch.lexer = .done rs ∧ ls = ch.buf ++ rs

theorem lexStep_small {st : LState} {l : Lexer} {s : Step} (h : lexStep st l = some s) :
    s.out.length ≤ chanLen := by
  cases st with
  | path =>
    simp only [lexStep, Option.some.injEq] at h
    subst h
    unfold lexPath
    split <;> simp [emitEnd, chanLen]
  | root =>
    simp only [lexStep, Option.some.injEq] at h
    subst h
    simp [lexRoot, chanLen]
  | subPath =>
    simp only [lexStep] at h
    obtain ⟨s', h1, hok, _⟩ := lexSubPath_ok l
    rw [h1, Option.some.injEq] at h
    subst h
    exact hok.small

/-- Rounds after which a state function has sent something. -/
def rounds : LState → Nat
  | .path => 2
  | _ => 1

theorem lexStep_out {st : LState} {l : Lexer} {s : Step} (h : lexStep st l = some s) :
    s.out ≠ [] ∨ ∃ st', s.next = some st' ∧ rounds st' < rounds st := by
  cases st with
  | path =>
    simp only [lexStep, Option.some.injEq] at h
    subst h
    unfold lexPath
    split
    · exact .inl (by simp [emitEnd])
    · exact .inr ⟨.root, rfl, by decide⟩
    · exact .inl (by simp)
  | root =>
    simp only [lexStep, Option.some.injEq] at h
    subst h
    exact .inl (by simp [lexRoot])
  | subPath =>
    refine .inl ?_
    simp only [lexStep] at h
    unfold lexSubPath at h
    have hc : ∀ l t, (handleChild l t).out ≠ [] := by
      intro l t
      unfold handleChild
      simp only
      split <;> simp [Lexer.errorf]
    split at h
    · simp only [Option.some.injEq] at h; subst h; simp [Lexer.errorf]
    · simp only [Option.some.injEq] at h; subst h; simp [emitEnd]
    · simp only [Option.some.injEq] at h; subst h; exact hc _ _
    · split at h
      · unfold handleBracket at h
        split at h
        · cases h
        · split at h
          · cases h
          · simp only [Option.some.injEq] at h; subst h; simp [Lexer.errorf]
          · split at h <;> · simp only [Option.some.injEq] at h; subst h; simp [Lexer.errorf]
      · split at h <;> · simp only [Option.some.injEq] at h; subst h; first | exact hc _ _ | simp [Lexer.errorf]

theorem nextLexeme_spec (fuel : Nat) : ∀ (ch : LexChan) (ls : List Lexeme), Remaining ch ls →
    (ch.buf = [] → ∀ st, ch.st = some st → rounds st < fuel) →
    ∃ ch' x, nextLexeme fuel ch = some (x, ch') ∧
      ((ls = [] ∧ x = ⟨.eof, []⟩ ∧ Remaining ch' []) ∨ ∃ r, ls = x :: r ∧ Remaining ch' r) := by
  have hbuf : ∀ (fuel : Nat) (ch : LexChan) (ls : List Lexeme), Remaining ch ls → ∀ x r, ch.buf = x :: r →
      ∃ ch' y, nextLexeme fuel ch = some (y, ch') ∧
      ((ls = [] ∧ y = ⟨.eof, []⟩ ∧ Remaining ch' []) ∨ ∃ r, ls = y :: r ∧ Remaining ch' r) := by
    intro fuel ch ls hrem x r hb
    refine ⟨{ ch with buf := r }, x, by unfold nextLexeme; rw [hb], .inr ?_⟩
    cases hst : ch.st with
    | none =>
      refine ⟨r, ?_, ?_⟩ <;> simp only [Remaining, hst] at hrem ⊢
      rw [hrem, hb]
    | some st =>
      simp only [Remaining, hst] at hrem
      obtain ⟨f, rs, h1, h2⟩ := hrem
      refine ⟨r ++ rs, by rw [h2, hb]; rfl, ?_⟩
      simp only [Remaining, hst]
      exact ⟨f, rs, h1, rfl⟩
  induction fuel with
  | zero =>
    intro ch ls hrem hr
    cases hb : ch.buf with
    | cons x r => exact hbuf 0 ch ls hrem x r hb
    | nil =>
      cases hst : ch.st with
      | none =>
        refine ⟨ch, ⟨.eof, []⟩, by unfold nextLexeme; simp [hb, hst], .inl ⟨?_, rfl, ?_⟩⟩
        · simp only [Remaining, hst, hb] at hrem; exact hrem
        · simp only [Remaining, hst, hb]
      | some st => exact absurd (hr hb st hst) (by omega)
  | succ fuel ih =>
    intro ch ls hrem hr
    cases hb : ch.buf with
    | cons x r => exact hbuf _ ch ls hrem x r hb
    | nil =>
      cases hst : ch.st with
      | none =>
        refine ⟨ch, ⟨.eof, []⟩, by unfold nextLexeme; simp [hb, hst], .inl ⟨?_, rfl, ?_⟩⟩
        · simp only [Remaining, hst, hb] at hrem; exact hrem
        · simp only [Remaining, hst, hb]
      | some st =>
        simp only [Remaining, hst, hb] at hrem
        obtain ⟨f, rs, h1, h2⟩ := hrem
        rw [List.nil_append] at h2
        subst h2
        cases f with
        | zero => simp [lexRun] at h1
        | succ f =>
          rw [lexRun] at h1
          cases hs : lexStep st ch.lexer with
          | none => simp [hs] at h1
          | some s =>
            simp only [hs] at h1
            have hrem' : Remaining ⟨s.out, s.next, s.lexer⟩ ls := by
              cases hn : s.next with
              | none =>
                simp only [hn, LexRes.done.injEq] at h1
                simp only [Remaining]
                exact h1.symm
              | some st' =>
                simp only [hn] at h1
                cases hr' : lexRun f st' s.lexer with
                | done rs =>
                  simp only [hr', LexRes.done.injEq] at h1
                  simp only [Remaining]
                  exact ⟨f, rs, hr', h1.symm⟩
                | panic => simp [hr'] at h1
                | outOfFuel => simp [hr'] at h1
            obtain ⟨ch', x, h3, h4⟩ := ih ⟨s.out, s.next, s.lexer⟩ ls hrem' (by
              intro hbe st' hst'
              rcases lexStep_out hs with ho | ⟨st'', h5, h6⟩
              · exact absurd hbe ho
              · simp only at hst'
                rw [h5, Option.some.injEq] at hst'
                subst hst'
                have := hr hb st hst
                omega)
            refine ⟨ch', x, ?_, h4⟩
            rw [nextLexeme]
            simp only [hb, hst, hs]
            rw [if_pos (lexStep_small hs)]
            exact h3

/-- C32: the lexer never blocks: a parser asking for any number of lexemes gets
them all, in the order of `lexAll`, and end-of-input lexemes from then on. -/
theorem C32_lexer_never_blocks (input : Str) (n : Nat) :
    ∃ ls, lexAll input = .done ls ∧
      receive n (lexChan input) = some (ls.take n ++ List.replicate (n - ls.length) ⟨.eof, []⟩) := by
  obtain ⟨ls, h, _⟩ := lexAll_done input
  refine ⟨ls, h, ?_⟩
  have key : ∀ (n : Nat) (ch : LexChan) (ls : List Lexeme), Remaining ch ls →
      receive n ch = some (ls.take n ++ List.replicate (n - ls.length) ⟨.eof, []⟩) := by
    intro n
    induction n with
    | zero => intro ch ls _; simp [receive]
    | succ n ih =>
      intro ch ls hrem
      obtain ⟨ch', x, h1, h2⟩ := nextLexeme_spec 3 ch ls hrem (by
        intro _ st _; cases st <;> decide)
      rw [receive, h1]
      simp only
      rcases h2 with ⟨rfl, rfl, h3⟩ | ⟨r, rfl, h3⟩
      · rw [ih ch' [] h3]
        simp [List.replicate_succ]
      · rw [ih ch' r h3]
        simp
  exact key n (lexChan input) ls ⟨_, ls, h, by simp [lexChan]⟩

example : lexAll c!"a.b['c d']" = .done [⟨.root, c!"$"⟩, ⟨.undottedChild, c!"a"⟩, ⟨.dotChild, c!".b"⟩,
    ⟨.bracketChild, c!"['c d']"⟩, ⟨.identity, []⟩, ⟨.eof, []⟩] := by decide
example : lexAll c!"$.a[0]" = .done [⟨.root, c!"$"⟩, ⟨.dotChild, c!".a"⟩, ⟨.error, []⟩] := by decide
example : (receive 4 (lexChan c!"$.a")).isSome = true := by decide

end Yot
