import Verif.Spec.Path
import Verif.Lemmas.Lexer
/-
The path builder accepts exactly the plain paths.
-/
namespace Yot
open Spec

theorem isChildEnd_iff (c : Char) : isChildEnd c = true ↔ c ∈ specialChars := by
  unfold isChildEnd specialChars
  simp only [Bool.or_eq_true, decide_eq_true_eq, List.mem_cons, List.not_mem_nil, or_false]
  tauto

theorem spanChild_name (s : Str) : ∀ c ∈ (spanChild s).1, c ∉ specialChars := by
  induction s with
  | nil => simp [spanChild]
  | cons c t ih =>
    unfold spanChild
    split
    · simp
    · rename_i h
      rw [isChildEnd_iff] at h
      simp only [List.mem_cons, forall_eq_or_imp]
      exact ⟨h, ih⟩

theorem spanChild_append (n r : Str) (hn : ∀ c ∈ n, c ∉ specialChars)
    (hr : ∀ c t, r = c :: t → c ∈ specialChars) : spanChild (n ++ r) = (n, r) := by
  induction n with
  | nil =>
    cases r with
    | nil => rfl
    | cons c t =>
      have := hr c t rfl
      rw [← isChildEnd_iff] at this
      simp [spanChild, this]
  | cons c n ih =>
    have h1 : ¬ isChildEnd c = true := by rw [isChildEnd_iff]; exact hn c (by simp)
    rw [List.cons_append, spanChild, if_neg h1, ih (fun x hx => hn x (by simp [hx]))]

theorem isSpace_iff (c : Char) : isSpace c = true ↔ c ∈ whiteSpace := by
  have hr : ('\u2000' ≤ c ∧ c ≤ '\u200a') ↔ c ∈ ['\u2000', '\u2001', '\u2002', '\u2003', '\u2004', '\u2005', '\u2006', '\u2007', '\u2008', '\u2009', '\u200a'] := by
    simp only [List.mem_cons, List.not_mem_nil, or_false, Char.ext_iff, Char.le_def, ← UInt32.toNat_inj, UInt32.le_iff_toNat_le]
    simp only [show ('\u2000' : Char).val.toNat = 0x2000 from rfl, show ('\u2001' : Char).val.toNat = 0x2001 from rfl,
      show ('\u2002' : Char).val.toNat = 0x2002 from rfl, show ('\u2003' : Char).val.toNat = 0x2003 from rfl,
      show ('\u2004' : Char).val.toNat = 0x2004 from rfl, show ('\u2005' : Char).val.toNat = 0x2005 from rfl,
      show ('\u2006' : Char).val.toNat = 0x2006 from rfl, show ('\u2007' : Char).val.toNat = 0x2007 from rfl,
      show ('\u2008' : Char).val.toNat = 0x2008 from rfl, show ('\u2009' : Char).val.toNat = 0x2009 from rfl,
      show ('\u200a' : Char).val.toNat = 0x200a from rfl]
    omega
  unfold isSpace whiteSpace
  simp only [Bool.or_eq_true, Bool.and_eq_true, decide_eq_true_eq, hr, List.mem_cons, List.not_mem_nil, or_false, or_assoc]

theorem spanSpace_space (s : Str) : Space (spanSpace s).1 := by
  induction s with
  | nil => simp [spanSpace, Space]
  | cons c t ih =>
    unfold spanSpace
    split
    · rename_i h
      intro x hx
      simp only [List.mem_cons] at hx
      rcases hx with rfl | hx
      · exact (isSpace_iff _).1 h
      · exact ih x hx
    · simp [Space]

theorem spanSpace_append (a : Str) (c : Char) (t : Str) (ha : Space a) (hc : isSpace c = false) :
    spanSpace (a ++ c :: t) = (a, c :: t) := by
  induction a with
  | nil => simp [spanSpace, hc]
  | cons x a ih =>
    rw [List.cons_append, spanSpace, if_pos ((isSpace_iff _).2 (ha x (by simp))), ih (fun y hy => ha y (by simp [hy]))]

theorem wsToken_iff {tok : Char} (htok : isSpace tok = false) {s a b : Str} :
    wsToken tok s = some (a, b) ↔ ∃ w, Space w ∧ a = w ++ [tok] ∧ s = w ++ tok :: b := by
  constructor
  · intro h
    unfold wsToken at h
    have he := spanSpace_eq s
    have hw := spanSpace_space s
    simp only at h
    split at h
    · rename_i c t hc
      split at h
      · rename_i hct
        simp only [Option.some.injEq, Prod.mk.injEq] at h
        obtain ⟨rfl, rfl⟩ := h
        rw [hc] at he
        subst hct
        exact ⟨(spanSpace s).1, hw, rfl, he.symm⟩
      · cases h
    · cases h
  · rintro ⟨w, hw, rfl, rfl⟩
    unfold wsToken
    simp only [spanSpace_append w tok b hw htok]
    simp

theorem escapedString_iff (q : Char) (hq : q ≠ '\\') (s a b : Str) :
    escapedString q s = some (a, b) ↔ QuotedBody q a ∧ s = a ++ b ∧ ∃ b', b = q :: b' := by
  constructor
  · intro h
    refine ⟨?_, escapedString_some s h⟩
    revert a b
    induction s using escapedString.induct (q := q) with
    | case1 => intro a b h; simp [escapedString] at h
    | case2 t =>
      intro a b h
      unfold escapedString at h
      simp only [if_true, Option.some.injEq, Prod.mk.injEq] at h
      obtain ⟨rfl, rfl⟩ := h
      exact .nil
    | case3 d u h1 h2 ih =>
      intro a b h
      unfold escapedString at h
      rw [if_neg h2] at h
      simp only [if_true, h1, Option.map_eq_some_iff, Prod.mk.injEq, Prod.exists] at h
      obtain ⟨x, y, hxy, rfl, rfl⟩ := h
      exact .escaped d x h1 (ih _ _ hxy)
    | case4 d u h1 h2 =>
      intro a b h
      unfold escapedString at h
      rw [if_neg h2] at h
      simp [h1] at h
    | case5 h1 =>
      intro a b h
      unfold escapedString at h
      rw [if_neg h1] at h
      simp at h
    | case6 c t h1 h2 ih =>
      intro a b h
      unfold escapedString at h
      rw [if_neg h1, if_neg h2] at h
      simp only [Option.map_eq_some_iff, Prod.mk.injEq, Prod.exists] at h
      obtain ⟨x, y, hxy, rfl, rfl⟩ := h
      exact .plain c x h1 h2 (ih _ _ hxy)
  · rintro ⟨hb, rfl, b', rfl⟩
    induction hb with
    | nil => unfold escapedString; simp
    | plain c t h1 h2 _ ih =>
      rw [List.cons_append]
      unfold escapedString
      rw [if_neg h1, if_neg h2, ih]
      rfl
    | escaped c t h1 _ ih =>
      rw [List.cons_append, List.cons_append]
      unfold escapedString
      rw [if_neg (Ne.symm hq), if_pos rfl]
      simp only [h1, if_true, ih]
      rfl

theorem quote_cases {q : Char} (h : enquoteOk q = true) : (q = '\'' ∨ q = '"') ∧ q ≠ '\\' ∧ isSpace q = false := by
  unfold enquoteOk at h
  simp only [Bool.or_eq_true, decide_eq_true_eq] at h
  rcases h with rfl | rfl
  · exact ⟨.inl rfl, by decide, by decide⟩
  · exact ⟨.inr rfl, by decide, by decide⟩

theorem peek_iff (s : Str) : ((wsToken '\'' s).isSome || (wsToken '"' s).isSome) = true ↔
    ∃ w q t, Space w ∧ enquoteOk q = true ∧ s = w ++ q :: t := by
  rw [Bool.or_eq_true, Option.isSome_iff_exists, Option.isSome_iff_exists]
  constructor
  · rintro (⟨⟨a, b⟩, h⟩ | ⟨⟨a, b⟩, h⟩)
    · obtain ⟨w, h1, _, h3⟩ := (wsToken_iff (by decide)).1 h
      exact ⟨w, '\'', b, h1, by decide, h3⟩
    · obtain ⟨w, h1, _, h3⟩ := (wsToken_iff (by decide)).1 h
      exact ⟨w, '"', b, h1, by decide, h3⟩
  · rintro ⟨w, q, t, h1, h2, h3⟩
    rcases (quote_cases h2).1 with rfl | rfl
    · exact .inl ⟨(w ++ ['\''], t), (wsToken_iff (by decide)).2 ⟨w, h1, rfl, h3⟩⟩
    · exact .inr ⟨(w ++ ['"'], t), (wsToken_iff (by decide)).2 ⟨w, h1, rfl, h3⟩⟩

/-- The loop of the bracket scanner reads exactly a list of quoted names. -/
theorem bracketLoop_sound (fuel : Nat) : ∀ {s x y : Str},
    ((wsToken '\'' s).isSome || (wsToken '"' s).isSome) = true →
    bracketLoop fuel s = .done x y → QuotedList x := by
  induction fuel with
  | zero => intro s x y _ h; simp [bracketLoop] at h
  | succ fuel ih =>
    intro s x y hp h
    obtain ⟨w, q, t, hw, hq, rfl⟩ := (peek_iff _).1 hp
    obtain ⟨hqc, hqb, hqs⟩ := quote_cases hq
    unfold bracketLoop at h
    simp only [spanSpace_append w q t hw hqs] at h
    split at h
    · split at h <;> cases h
    · rename_i body u hu
      obtain ⟨h0, h1, u', rfl⟩ := (escapedString_iff q hqb _ _ _).1 hu
      simp only [List.take_succ_cons, List.take_zero, List.drop_succ_cons, List.drop_zero] at h
      have hname : QuotedName (q :: (body ++ [q])) := ⟨q, body, hqc, h0, rfl⟩
      split at h
      · rename_i c v hcv
        obtain ⟨b, hb, rfl, _⟩ := (wsToken_iff (by decide)).1 hcv
        split at h
        · rename_i hpv
          split at h
          · rename_i x' y' hr
            simp only [BracketRes.done.injEq] at h
            obtain ⟨rfl, rfl⟩ := h
            have := QuotedList.more w (q :: (body ++ [q])) b x' hw hname hb (ih hpv hr)
            simpa using this
          · rename_i hno
            exact absurd h (hno x y)
        · cases h
      · simp only [BracketRes.done.injEq] at h
        obtain ⟨rfl, rfl⟩ := h
        have := QuotedList.one w (q :: (body ++ [q])) hw hname
        simpa using this

theorem quotedList_peek {x : Str} (h : QuotedList x) (y : Str) :
    ((wsToken '\'' (x ++ y)).isSome || (wsToken '"' (x ++ y)).isSome) = true := by
  rw [peek_iff]
  have hn : ∀ t, QuotedName t → ∃ q u, t = q :: u ∧ enquoteOk q = true := by
    rintro t ⟨q, body, hq, _, rfl⟩
    refine ⟨q, _, rfl, ?_⟩
    rcases hq with rfl | rfl <;> decide
  cases h with
  | one a t ha ht =>
    obtain ⟨q, u, rfl, hq⟩ := hn t ht
    exact ⟨a, q, u ++ y, ha, hq, by simp⟩
  | more a t b r ha ht hb hr =>
    obtain ⟨q, u, rfl, hq⟩ := hn t ht
    exact ⟨a, q, u ++ b ++ ',' :: r ++ y, ha, hq, by simp⟩

theorem bracketLoop_complete {x : Str} (h : QuotedList x) : ∀ (y : Str) (fuel : Nat), (x ++ y).length < fuel →
    wsToken ',' y = none → bracketLoop fuel (x ++ y) = .done x y := by
  induction h with
  | one a t ha ht =>
    intro y fuel hf hy
    obtain ⟨q, body, hq, hb, rfl⟩ := ht
    have hqe : enquoteOk q = true := by rcases hq with rfl | rfl <;> decide
    obtain ⟨_, hqb, hqs⟩ := quote_cases hqe
    cases fuel with
    | zero => omega
    | succ fuel =>
      have he : a ++ q :: (body ++ [q]) ++ y = a ++ q :: (body ++ q :: y) := by simp
      rw [he, bracketLoop]
      simp only [spanSpace_append a q _ ha hqs]
      rw [(escapedString_iff q hqb _ body (q :: y)).2 ⟨hb, rfl, y, rfl⟩]
      simp [hy]
  | more a t b r ha ht hb hr ih =>
    intro y fuel hf hy
    obtain ⟨q, body, hq, hbd, rfl⟩ := ht
    have hqe : enquoteOk q = true := by rcases hq with rfl | rfl <;> decide
    obtain ⟨_, hqb, hqs⟩ := quote_cases hqe
    cases fuel with
    | zero => omega
    | succ fuel =>
      have he : a ++ q :: (body ++ [q]) ++ b ++ ',' :: r ++ y = a ++ q :: (body ++ q :: (b ++ ',' :: (r ++ y))) := by simp
      rw [he] at hf ⊢
      rw [bracketLoop]
      simp only [spanSpace_append a q _ ha hqs]
      rw [(escapedString_iff q hqb _ body (q :: (b ++ ',' :: (r ++ y)))).2 ⟨hbd, rfl, _, rfl⟩]
      simp only [List.take_succ_cons, List.take_zero, List.drop_succ_cons, List.drop_zero]
      rw [(wsToken_iff (by decide)).2 ⟨b, hb, rfl, rfl⟩]
      simp only
      rw [if_pos (quotedList_peek hr y), ih y fuel (by simp at hf ⊢; omega) hy]
      simp

theorem peekBracket_iff (s : Str) : (peekBracketQuote '\'' s || peekBracketQuote '"' s) = true ↔
    ∃ a t, Space a ∧ s = a ++ '[' :: t ∧ ((wsToken '\'' t).isSome || (wsToken '"' t).isSome) = true := by
  unfold peekBracketQuote
  cases hw : wsToken '[' s with
  | none =>
    simp only [Bool.or_self, Bool.false_eq_true, false_iff]
    rintro ⟨a, t, h1, h2, _⟩
    have := (wsToken_iff (tok := '[') (by decide)).2 ⟨a, h1, rfl, h2⟩
    rw [hw] at this
    cases this
  | some os =>
    obtain ⟨o, t⟩ := os
    obtain ⟨a, h1, rfl, h3⟩ := (wsToken_iff (by decide)).1 hw
    simp only
    constructor
    · intro h; exact ⟨a, t, h1, h3, h⟩
    · rintro ⟨a', t', h1', h3', h⟩
      have := (wsToken_iff (tok := '[') (by decide)).2 ⟨a', h1', rfl, h3'⟩
      rw [hw, Option.some.injEq, Prod.mk.injEq] at this
      rw [this.2]
      exact h

/-- The bracket scanner reads exactly a bracketed segment. -/
theorem handleBracket_sound (l : Lexer)
    (h : (peekBracketQuote '\'' l.rest || peekBracketQuote '"' l.rest) = true) :
    handleBracket l = some l.errorf ∨
    ∃ t r, BracketSegment t ∧ l.rest = t ++ r ∧
      handleBracket l = some ⟨⟨[], r, .bracketChild⟩, [⟨.bracketChild, l.cur ++ t⟩], some .subPath⟩ := by
  obtain ⟨a, s, ha, hs, hp⟩ := (peekBracket_iff _).1 h
  have hw := (wsToken_iff (tok := '[') (by decide)).2 ⟨a, ha, rfl, hs⟩
  have hnp := bracketLoop_noPanic (s.length + 1) (s := s) (by omega) (by simpa using hp)
  unfold handleBracket
  rw [hw]
  simp only
  cases hb : bracketLoop (s.length + 1) s with
  | panic => exact absurd hb hnp
  | fail => exact .inl rfl
  | done x s' =>
    simp only
    cases hc : wsToken ']' s' with
    | none => exact .inl rfl
    | some cs =>
      obtain ⟨c, s''⟩ := cs
      obtain ⟨b, hb1, rfl, hb2⟩ := (wsToken_iff (by decide)).1 hc
      refine .inr ⟨a ++ '[' :: (x ++ b ++ [']']), s'', ⟨a, x, b, ha, bracketLoop_sound _ hp hb, hb1, rfl⟩, ?_, ?_⟩
      · rw [hs, bracketLoop_done _ hb, hb2]; simp
      · simp [Lexer.emit, Lexer.advance]

theorem handleBracket_complete (l : Lexer) (t r : Str) (ht : BracketSegment t) (hr : l.rest = t ++ r) :
    (peekBracketQuote '\'' l.rest || peekBracketQuote '"' l.rest) = true ∧
    handleBracket l = some ⟨⟨[], r, .bracketChild⟩, [⟨.bracketChild, l.cur ++ t⟩], some .subPath⟩ := by
  obtain ⟨a, x, b, ha, hx, hb, rfl⟩ := ht
  have hs : l.rest = a ++ '[' :: (x ++ (b ++ ']' :: r)) := by rw [hr]; simp
  have hp := quotedList_peek hx (b ++ ']' :: r)
  refine ⟨(peekBracket_iff _).2 ⟨a, _, ha, hs, hp⟩, ?_⟩
  have hw := (wsToken_iff (tok := '[') (by decide)).2 ⟨a, ha, rfl, hs⟩
  have hcomma : wsToken ',' (b ++ ']' :: r) = none := by
    unfold wsToken
    simp only [spanSpace_append b ']' r hb (by decide)]
    rfl
  unfold handleBracket
  rw [hw]
  simp only
  rw [bracketLoop_complete hx (b ++ ']' :: r) _ (by omega) hcomma]
  simp only
  rw [(wsToken_iff (by decide)).2 ⟨b, hb, rfl, rfl⟩]
  simp [Lexer.emit, Lexer.advance]

end Yot
