import Verif.Model.Builder
import Verif.Lemmas.Tac
/-
Facts about the path lexer.
-/
namespace Yot

theorem spanSpace_eq (s : Str) : (spanSpace s).1 ++ (spanSpace s).2 = s := by
  induction s with
  | nil => rfl
  | cons c t ih =>
    unfold spanSpace
    split
    · simp only [List.cons_append, ih]
    · rfl

theorem wsToken_some {tok : Char} {s a b : Str} (h : wsToken tok s = some (a, b)) :
    s = a ++ b ∧ b.length < s.length := by
  unfold wsToken at h
  have he := spanSpace_eq s
  simp only at h
  split at h
  · rename_i c t hc
    split at h
    · rename_i hct
      simp only [Option.some.injEq, Prod.mk.injEq] at h
      obtain ⟨rfl, rfl⟩ := h
      rw [hc] at he
      constructor
      · conv_lhs => rw [← he]
        simp
      · conv_rhs => rw [← he]
        simp only [List.length_append, List.length_cons]; omega
    · cases h
  · cases h

theorem wsToken_isSome {tok : Char} {s : Str} (h : (wsToken tok s).isSome = true) :
    ∃ t, (spanSpace s).2 = tok :: t := by
  unfold wsToken at h
  simp only at h
  split at h
  · rename_i c t hc
    split at h
    · rename_i hct; exact ⟨t, by rw [hc, hct]⟩
    · simp at h
  · simp at h

theorem escapedString_some {q : Char} (s : Str) : ∀ {a b : Str}, escapedString q s = some (a, b) →
    s = a ++ b ∧ ∃ b', b = q :: b' := by
  induction s using escapedString.induct (q := q) with
  | case1 => intro a b h; simp [escapedString] at h
  | case2 t =>
    intro a b h
    unfold escapedString at h
    simp only [if_true, Option.some.injEq, Prod.mk.injEq] at h
    obtain ⟨rfl, rfl⟩ := h
    exact ⟨rfl, t, rfl⟩
  | case3 d u h1 h2 ih =>
    intro a b h
    unfold escapedString at h
    rw [if_neg h2] at h
    simp only [if_true, h1, Option.map_eq_some_iff, Prod.mk.injEq, Prod.exists] at h
    obtain ⟨x, y, hxy, rfl, rfl⟩ := h
    obtain ⟨h3, h4⟩ := ih hxy
    exact ⟨by rw [h3]; rfl, h4⟩
  | case4 d u h1 h2 =>
    intro a b h
    unfold escapedString at h
    rw [if_neg h2] at h
    simp [h1] at h
  | case5 h1 =>
    intro a b h
    unfold escapedString at h
    rw [if_neg h1] at h
    simp at h
  | case6 c t h1 h2 ih =>
    intro a b h
    unfold escapedString at h
    rw [if_neg h1, if_neg h2] at h
    simp only [Option.map_eq_some_iff, Prod.mk.injEq, Prod.exists] at h
    obtain ⟨x, y, hxy, rfl, rfl⟩ := h
    obtain ⟨h3, h4⟩ := ih hxy
    exact ⟨by rw [h3]; rfl, h4⟩

theorem spanChild_eq (s : Str) : (spanChild s).1 ++ (spanChild s).2 = s := by
  induction s with
  | nil => rfl
  | cons c t ih =>
    unfold spanChild
    split
    · rfl
    · simp only [List.cons_append, ih]

theorem bracketLoop_done (fuel : Nat) : ∀ {s x y : Str}, bracketLoop fuel s = .done x y → s = x ++ y := by
  induction fuel with
  | zero => intro s x y h; simp [bracketLoop] at h
  | succ fuel ih =>
    intro s x y h
    unfold bracketLoop at h
    have he := spanSpace_eq s
    simp only at h
    split at h
    · cases h
    · rename_i q t hq
      rw [hq] at he
      split at h
      · split at h <;> cases h
      · rename_i body u hu
        obtain ⟨h1, u', h2⟩ := escapedString_some _ hu
        subst h2
        simp only [List.take_succ_cons, List.take_zero, List.drop_succ_cons, List.drop_zero] at h
        split at h
        · rename_i c v hcv
          obtain ⟨h3, _⟩ := wsToken_some hcv
          split at h
          · split at h
            · rename_i x' y' hr
              simp only [BracketRes.done.injEq] at h
              obtain ⟨rfl, rfl⟩ := h
              conv_lhs => rw [← he, h1, h3, ih hr]
              simp
            · rename_i hno
              exact absurd h (hno x y)
          · cases h
        · simp only [BracketRes.done.injEq] at h
          obtain ⟨rfl, rfl⟩ := h
          conv_lhs => rw [← he, h1]
          simp

theorem bracketLoop_noPanic (fuel : Nat) : ∀ {s : Str}, s.length < fuel →
    ((wsToken '\'' s).isSome = true ∨ (wsToken '"' s).isSome = true) → bracketLoop fuel s ≠ .panic := by
  induction fuel with
  | zero => intro s h; omega
  | succ fuel ih =>
    intro s hf hq
    have hq' : ∃ q t, (spanSpace s).2 = q :: t ∧ enquoteOk q = true := by
      rcases hq with hq | hq
      · obtain ⟨t, ht⟩ := wsToken_isSome hq
        exact ⟨'\'', t, ht, by decide⟩
      · obtain ⟨t, ht⟩ := wsToken_isSome hq
        exact ⟨'"', t, ht, by decide⟩
    obtain ⟨q, t, hqt, hok⟩ := hq'
    have he := spanSpace_eq s
    rw [hqt] at he
    unfold bracketLoop
    simp only [hqt]
    cases hes : escapedString q t with
    | none => simp [hok]
    | some bu =>
      obtain ⟨body, u⟩ := bu
      obtain ⟨h1, u', h2⟩ := escapedString_some _ hes
      subst h2
      simp only [List.take_succ_cons, List.take_zero, List.drop_succ_cons, List.drop_zero]
      cases hw : wsToken ',' u' with
      | none => simp
      | some cv =>
        obtain ⟨c, v⟩ := cv
        obtain ⟨h3, h4⟩ := wsToken_some hw
        simp only
        by_cases hcond : ((wsToken '\'' v).isSome || (wsToken '"' v).isSome) = true
        · rw [if_pos hcond]
          have hlen : v.length < fuel := by
            have e1 := congrArg List.length he
            have e2 := congrArg List.length h1
            simp only [List.length_append, List.length_cons] at e1 e2
            omega
          have := ih (s := v) hlen (by simpa using hcond)
          cases hb : bracketLoop fuel v with
          | panic => exact absurd hb this
          | fail => simp
          | done x y => simp
        · rw [if_neg hcond]; simp

/-- What one step of the lexer does to the texts: what it sends and what remains
is what was there. -/
structure StepOk (l : Lexer) (s : Step) : Prop where
  small : s.out.length ≤ 2
  text : (∃ e ∈ s.out, e.typ = .error) ∨
    s.out.flatMap (fun e => e.val) ++ s.lexer.cur ++ s.lexer.rest = l.cur ++ l.rest
  stop : s.next = none → (∃ e ∈ s.out, e.typ = .error) ∨ (s.lexer.cur = [] ∧ s.lexer.rest = [])
  more : s.next ≠ none → ∀ e ∈ s.out, e.typ ≠ .error

theorem errorf_ok (l l0 : Lexer) : StepOk l0 l.errorf where
  small := by simp [Lexer.errorf]
  text := .inl ⟨_, by simp [Lexer.errorf]; rfl, rfl⟩
  stop := fun _ => .inl ⟨_, by simp [Lexer.errorf]; rfl, rfl⟩
  more := by simp [Lexer.errorf]

theorem handleChild_ok (l : Lexer) (t : LexType) (ht : t ≠ .error) : StepOk l (handleChild l t) := by
  unfold handleChild
  simp only
  split
  · exact errorf_ok l l
  · refine ⟨by simp [Lexer.emit, Lexer.advance], .inr ?_, by simp, ?_⟩
    · simp [Lexer.emit, Lexer.advance, spanChild_eq]
    · simp [Lexer.emit, ht]

theorem handleChild_next (l : Lexer) (t : LexType) (st : LState) (h : (handleChild l t).next = some st) :
    st = .subPath ∧ (handleChild l t).lexer.rest.length < l.rest.length := by
  unfold handleChild at h ⊢
  simp only at h ⊢
  split at h
  · simp [Lexer.errorf] at h
  · rename_i hne
    rw [if_neg hne]
    simp only [Option.some.injEq] at h
    refine ⟨h.symm, ?_⟩
    have := congrArg List.length (spanChild_eq l.rest)
    simp only [Lexer.emit, Lexer.advance, List.length_append] at this ⊢
    have h1 : 0 < (spanChild l.rest).1.length := by
      apply List.length_pos_iff.2
      simpa using hne
    omega

theorem handleBracket_ok (l : Lexer)
    (h : (peekBracketQuote '\'' l.rest || peekBracketQuote '"' l.rest) = true) :
    ∃ s, handleBracket l = some s ∧ StepOk l s ∧
      ∀ st, s.next = some st → st = .subPath ∧ s.lexer.rest.length < l.rest.length := by
  unfold peekBracketQuote at h
  unfold handleBracket
  cases hw : wsToken '[' l.rest with
  | none => simp [hw] at h
  | some os =>
    obtain ⟨o, s⟩ := os
    simp only [hw, Bool.or_eq_true] at h
    obtain ⟨h1, h2⟩ := wsToken_some hw
    simp only
    have hnp := bracketLoop_noPanic (s.length + 1) (s := s) (by omega) h
    cases hb : bracketLoop (s.length + 1) s with
    | panic => exact absurd hb hnp
    | fail => exact ⟨_, rfl, errorf_ok l l, by simp [Lexer.errorf]⟩
    | done x s' =>
      have h3 := bracketLoop_done _ hb
      simp only
      cases hc : wsToken ']' s' with
      | none => exact ⟨_, rfl, errorf_ok l l, by simp [Lexer.errorf]⟩
      | some cs =>
        obtain ⟨c, s''⟩ := cs
        obtain ⟨h4, h5⟩ := wsToken_some hc
        refine ⟨_, rfl, ⟨by simp, .inr ?_, by simp, by simp [Lexer.emit]⟩, ?_⟩
        · simp only [Lexer.emit, Lexer.advance, List.flatMap_cons, List.flatMap_nil, List.append_nil]
          rw [h1, h3, h4]
          simp
        · intro st hst
          simp only [Option.some.injEq] at hst
          refine ⟨hst.symm, ?_⟩
          simp only [Lexer.emit, Lexer.advance]
          have := congrArg List.length h3
          simp only [List.length_append] at this
          omega

theorem emitEnd_ok (l : Lexer) (h : l.rest = []) : StepOk l (emitEnd l) where
  small := by simp [emitEnd]
  text := .inr (by simp [emitEnd, Lexer.emit])
  stop := fun _ => .inr ⟨rfl, h⟩
  more := by simp [emitEnd]

theorem lexSubPath_ok (l : Lexer) : ∃ s, lexSubPath l = some s ∧ StepOk l s ∧
    ∀ st, s.next = some st → st = .subPath ∧ s.lexer.rest.length < l.rest.length := by
  unfold lexSubPath
  split
  · exact ⟨_, rfl, errorf_ok l l, by simp [Lexer.errorf]⟩
  · rename_i h
    exact ⟨_, rfl, emitEnd_ok l h, by simp [emitEnd]⟩
  · rename_i t h
    have hok := handleChild_ok (l.advance ['.'] t) .dotChild (by decide)
    refine ⟨_, rfl, ⟨hok.small, ?_, hok.stop, hok.more⟩, ?_⟩
    · rcases hok.text with h1 | h1
      · exact .inl h1
      · exact .inr (by rw [h1, h]; simp [Lexer.advance])
    · intro st hst
      obtain ⟨h1, h2⟩ := handleChild_next _ _ _ hst
      refine ⟨h1, ?_⟩
      have : (l.advance ['.'] t).rest = t := rfl
      rw [this] at h2
      rw [h, List.length_cons]
      omega
  · split
    · rename_i h
      exact handleBracket_ok l h
    · split
      · exact ⟨_, rfl, handleChild_ok l _ (by decide), fun st hst => handleChild_next _ _ _ hst⟩
      · exact ⟨_, rfl, errorf_ok l l, by simp [Lexer.errorf]⟩

theorem lexRun_subPath (fuel : Nat) : ∀ (l : Lexer), l.rest.length < fuel →
    ∃ ls, lexRun fuel .subPath l = .done ls ∧
      ((∃ e ∈ ls, e.typ = .error) ∨ ls.flatMap (fun e => e.val) = l.cur ++ l.rest) := by
  induction fuel with
  | zero => intro l h; omega
  | succ fuel ih =>
    intro l hf
    obtain ⟨s, hs, hok, hnext⟩ := lexSubPath_ok l
    simp only [lexRun, lexStep, hs]
    cases hn : s.next with
    | none =>
      refine ⟨s.out, rfl, ?_⟩
      rcases hok.stop hn with h | ⟨h1, h2⟩
      · exact .inl h
      · rcases hok.text with h | h
        · exact .inl h
        · exact .inr (by rw [← h, h1, h2]; simp)
    | some st =>
      obtain ⟨rfl, hlt⟩ := hnext st hn
      obtain ⟨ls, h1, h2⟩ := ih s.lexer (by omega)
      simp only [h1]
      refine ⟨s.out ++ ls, rfl, ?_⟩
      rcases h2 with ⟨e, he, het⟩ | h2
      · exact .inl ⟨e, by simp [he], het⟩
      · rcases hok.text with ⟨e, he, het⟩ | h
        · exact .inl ⟨e, by simp [he], het⟩
        · refine .inr ?_
          rw [List.flatMap_append, h2, ← h]
          simp

theorem lexRun_step {fuel : Nat} {st st' : LState} {l : Lexer} {s : Step} {ls : List Lexeme}
    (h : lexStep st l = some s) (hn : s.next = some st') (hr : lexRun fuel st' s.lexer = .done ls) :
    lexRun (fuel + 1) st l = .done (s.out ++ ls) := by
  rw [lexRun]
  simp only [h, hn, hr]

theorem lexAll_done (s : Str) : ∃ ls, lexAll s = .done ls ∧
    ((∃ e ∈ ls, e.typ = .error) ∨ ls.flatMap (fun e => e.val) = s ∨
      ls.flatMap (fun e => e.val) = '$' :: s) := by
  unfold lexAll lexInit
  match hs : s with
  | [] => exact ⟨_, rfl, .inr (.inl rfl)⟩
  | c :: t =>
    by_cases hc : c = '$'
    · subst hc
      obtain ⟨ls, h1, h2⟩ := lexRun_subPath (t.length + 2) ⟨[], t, .root⟩ (by simp)
      refine ⟨[] ++ ([⟨.root, ['$']⟩] ++ ls), ?_, ?_⟩
      · simp only [List.length_cons]
        rw [show t.length + 1 + 3 = (t.length + 2) + 1 + 1 by omega]
        exact lexRun_step (s := ⟨⟨[], '$' :: t, .eof⟩, [], some .root⟩) rfl rfl
          (lexRun_step (s := ⟨⟨[], t, .root⟩, [⟨.root, ['$']⟩], some .subPath⟩) rfl rfl h1)
      · rcases h2 with ⟨e, he, het⟩ | h2
        · exact .inl ⟨e, by simp [he], het⟩
        · refine .inr (.inl ?_)
          simp [h2]
    · obtain ⟨ls, h1, h2⟩ := lexRun_subPath (t.length + 3) ⟨[], c :: t, .eof⟩ (by simp)
      refine ⟨[⟨.root, ['$']⟩] ++ ls, ?_, ?_⟩
      · simp only [List.length_cons]
        rw [show t.length + 1 + 3 = (t.length + 3) + 1 by omega]
        have hp : lexPath ⟨[], c :: t, .eof⟩ = ⟨⟨[], c :: t, .eof⟩, [⟨.root, ['$']⟩], some .subPath⟩ := by
          unfold lexPath
          split
          · rename_i h; simp at h
          · rename_i h; simp only [List.cons.injEq] at h; exact absurd h.1 hc
          · rfl
        exact lexRun_step (s := ⟨⟨[], c :: t, .eof⟩, [⟨.root, ['$']⟩], some .subPath⟩) (by rw [lexStep, hp]) rfl h1
      · rcases h2 with ⟨e, he, het⟩ | h2
        · exact .inl ⟨e, by simp [he], het⟩
        · refine .inr (.inr ?_)
          simp [h2]

end Yot
