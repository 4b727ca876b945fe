import Verif.Lemmas.Path
/-
The path builder accepts exactly the plain paths.
-/
namespace Yot
open Spec

theorem bracketSegment_head {t : Str} (h : BracketSegment t) : ∃ a s, Space a ∧ t = a ++ '[' :: s := by
  obtain ⟨a, x, b, ha, _, _, rfl⟩ := h
  exact ⟨a, _, ha, rfl⟩

/-- A plain tail is empty, or starts with a dot and a name, or with a bracket. -/
theorem plainTail_cases {s : Str} (h : PlainTail s) :
    s = [] ∨ (∃ n r, s = '.' :: (n ++ r) ∧ NameText n ∧ PlainTail r) ∨
    (∃ t r, s = t ++ r ∧ BracketSegment t ∧ PlainTail r) := by
  cases h with
  | nil => exact .inl rfl
  | dot n r h1 h2 => exact .inr (.inl ⟨n, r, rfl, h1, h2⟩)
  | bracket t r h1 h2 => exact .inr (.inr ⟨t, r, rfl, h1, h2⟩)

theorem not_segment_of_head {c : Char} {s t r : Str} (hc : isSpace c = false) (hb : c ≠ '[')
    (h : c :: s = t ++ r) : ¬ BracketSegment t := by
  intro ht
  obtain ⟨a, u, ha, rfl⟩ := bracketSegment_head ht
  cases a with
  | nil => simp only [List.nil_append, List.cons_append, List.cons.injEq] at h; exact hb h.1
  | cons x a =>
    simp only [List.cons_append, List.cons.injEq] at h
    have := ha x (by simp)
    rw [← isSpace_iff, ← h.1, hc] at this
    cases this

theorem spanChild_prefix (n r : Str) (hn : ∀ c ∈ n, c ∉ specialChars) :
    spanChild (n ++ r) = (n ++ (spanChild r).1, (spanChild r).2) := by
  induction n with
  | nil => simp
  | cons c n ih =>
    have h1 : ¬ isChildEnd c = true := by rw [isChildEnd_iff]; exact hn c (by simp)
    rw [List.cons_append, spanChild, if_neg h1, ih (fun x hx => hn x (by simp [hx]))]
    rfl

theorem spanChild_space (a s : Str) (ha : Space a) :
    ∃ a', Space a' ∧ (spanChild (a ++ '[' :: s)).2 = a' ++ '[' :: s := by
  induction a with
  | nil => exact ⟨[], ha, by simp [spanChild, isChildEnd]⟩
  | cons c a ih =>
    have ha' : Space a := fun x hx => ha x (by simp [hx])
    rw [List.cons_append, spanChild]
    split
    · exact ⟨c :: a, ha, rfl⟩
    · exact ih ha'

theorem plainTail_spanChild {r : Str} (h : PlainTail r) : PlainTail (spanChild r).2 := by
  rcases plainTail_cases h with rfl | ⟨n, r', rfl, h1, h2⟩ | ⟨t, r', rfl, ⟨a, x, b, ha, hx, hb, rfl⟩, h2⟩
  · exact .nil
  · simp only [spanChild, isChildEnd]
    exact h
  · obtain ⟨a', ha', he⟩ := spanChild_space a (x ++ b ++ [']'] ++ r') ha
    have e1 : a ++ '[' :: (x ++ b ++ [']']) ++ r' = a ++ '[' :: (x ++ b ++ [']'] ++ r') := by simp
    rw [e1, he]
    have := PlainTail.bracket (a' ++ '[' :: (x ++ b ++ [']'])) r' ⟨a', x, b, ha', hx, hb, rfl⟩ h2
    simpa using this

theorem name_first {n : Str} (h : NameText n) : ∃ c t, n = c :: t ∧ c ∉ specialChars := by
  obtain ⟨h1, h2⟩ := h
  cases n with
  | nil => exact absurd rfl h1
  | cons c t => exact ⟨c, t, rfl, h2 c (by simp)⟩

theorem spanChild_nonempty {n r : Str} (h : NameText n) : (spanChild (n ++ r)).1 ≠ [] := by
  rw [spanChild_prefix n r h.2]
  intro hc
  exact h.1 (List.append_eq_nil_iff.1 hc).1

theorem unescapeGo_mem {x : Char} (s : Str) : ∀ e, x ∈ unescapeGo e s → x ∈ s := by
  induction s with
  | nil => intro e h; simp [unescapeGo] at h
  | cons c t ih =>
    intro e h
    unfold unescapeGo at h
    split at h
    · split at h
      · rcases List.mem_cons.1 h with rfl | h
        · simp
        · exact List.mem_cons_of_mem _ (ih _ h)
      · exact List.mem_cons_of_mem _ (ih _ h)
    · rcases List.mem_cons.1 h with rfl | h
      · simp
      · exact List.mem_cons_of_mem _ (ih _ h)

theorem notStar {n : Str} (h : ∀ c ∈ n, c ∉ specialChars) : n ≠ ['*'] ∧ unescape n ≠ ['*'] := by
  have hs : '*' ∉ n := fun hm => h '*' hm (by decide)
  constructor
  · rintro rfl; simp at hs
  · intro hc
    apply hs
    exact unescapeGo_mem n false (by unfold unescape at hc; rw [hc]; simp)

/-- The texts accepted in the middle of a path, or (`last = eof`) at its start. -/
def Accepts (last : LexType) (s : Str) : Prop :=
  PlainTail s ∨ (last = .eof ∧ ∃ n r, s = n ++ r ∧ NameText n ∧ PlainTail r)

theorem newPath_cons_ok {lx : Lexeme} {ls : List Lexeme} (f : Node → Node)
    (h : newPath (lx :: ls) = newPath ls >>= fun sub => .ok (f sub)) :
    ((∃ n, newPath (lx :: ls) = .ok n) ↔ ∃ n, newPath ls = .ok n) ∧
    (newPath (lx :: ls) = .err .invalidPathSyntax ↔ newPath ls = .err .invalidPathSyntax) := by
  rw [h]
  cases newPath ls <;> simp

/-- Verdict on a run of the lexer: success for accepted texts, else the syntax
error. -/
def Verdict (ls : List Lexeme) (good : Prop) : Prop :=
  ((∃ n, newPath ls = .ok n) ∧ good) ∨ (newPath ls = .err .invalidPathSyntax ∧ ¬ good)

theorem Verdict.congr {ls : List Lexeme} {p q : Prop} (h : p ↔ q) (hv : Verdict ls p) : Verdict ls q := by
  unfold Verdict at *
  rw [← h]; exact hv

theorem Verdict.cons {lx : Lexeme} {ls : List Lexeme} {p : Prop} (f : Node → Node)
    (h : newPath (lx :: ls) = newPath ls >>= fun sub => .ok (f sub)) (hv : Verdict ls p) :
    Verdict (lx :: ls) p := by
  obtain ⟨h1, h2⟩ := newPath_cons_ok f h
  unfold Verdict at *
  rw [h1, h2]; exact hv

theorem verdict_error {good : Prop} (h : ¬ good) (v : Str) : Verdict [⟨.error, v⟩] good :=
  .inr ⟨rfl, h⟩

theorem subPath_accepts (fuel : Nat) : ∀ l : Lexer, l.cur = [] → l.rest.length < fuel →
    ∃ ls, lexRun fuel .subPath l = .done ls ∧ Verdict ls (Accepts l.last l.rest) := by
  induction fuel with
  | zero => intro l _ h; omega
  | succ fuel ih =>
    rintro ⟨cur, rest, last⟩ hcur hf
    simp only at hcur hf
    subst hcur
    have hdot : ∀ t : Str, ('.' :: t).length < fuel + 1 →
        ∃ ls, lexRun (fuel + 1) .subPath ⟨[], '.' :: t, last⟩ = .done ls ∧ Verdict ls (Accepts last ('.' :: t)) := by
      intro t hf
      have hstep : lexStep .subPath ⟨[], '.' :: t, last⟩ = some (handleChild ⟨['.'], t, last⟩ .dotChild) := rfl
      have hnodot : Accepts last ('.' :: t) ↔ ∃ n r, t = n ++ r ∧ NameText n ∧ PlainTail r := by
        constructor
        · rintro (h | ⟨_, n, r, h1, h2, _⟩)
          · rcases plainTail_cases h with h | ⟨n, r, h, h1, h2⟩ | ⟨t', r, h, h2, _⟩
            · simp at h
            · simp only [List.cons.injEq, true_and] at h
              exact ⟨n, r, h, h1, h2⟩
            · exact absurd h2 (not_segment_of_head (by decide) (by decide) h)
          · obtain ⟨c, u, rfl, hc⟩ := name_first h2
            simp only [List.cons_append, List.cons.injEq] at h1
            rw [← h1.1] at hc
            exact absurd (by decide) hc
        · rintro ⟨n, r, rfl, h1, h2⟩
          exact .inl (.dot n r h1 h2)
      unfold handleChild at hstep
      simp only at hstep
      by_cases he : (spanChild t).1 = []
      · rw [if_pos (by simpa using he)] at hstep
        refine ⟨[⟨.error, []⟩], ?_, verdict_error ?_ _⟩
        · rw [lexRun]; simp only [hstep, Lexer.errorf]
        · rw [hnodot]
          rintro ⟨n, r, rfl, h1, _⟩
          exact spanChild_nonempty h1 he
      · rw [if_neg (by simpa using he)] at hstep
        simp only [Lexer.emit, Lexer.advance] at hstep
        have hlen : (spanChild t).2.length < fuel := by
          have := congrArg List.length (spanChild_eq t)
          simp only [List.length_append, List.length_cons] at this hf
          omega
        obtain ⟨ls, h1, h2⟩ := ih ⟨[], (spanChild t).2, .dotChild⟩ rfl hlen
        refine ⟨_, lexRun_step hstep rfl h1, ?_⟩
        have hns := notStar (spanChild_name t)
        refine Verdict.congr ?_ (Verdict.cons (fun sub => mapNode [unescape (unescape (spanChild t).1)] sub) ?_ h2)
        · rw [hnodot]
          constructor
          · rintro (h | ⟨h, _⟩)
            · exact ⟨_, _, (spanChild_eq t).symm, ⟨he, spanChild_name t⟩, h⟩
            · cases h
          · rintro ⟨n, r, rfl, h3, h4⟩
            refine .inl ?_
            simp only [spanChild_prefix n r h3.2]
            exact plainTail_spanChild h4
        · have htp : trimPrefix ['.'] (['.'] ++ (spanChild t).1) = (spanChild t).1 := by
            simp [trimPrefix, hasPrefix]
          rw [newPath]
          simp only [htp, hns.1, if_false, hns.2]
    match rest, hf with
    | [], hf => exact ⟨[⟨.identity, []⟩, ⟨.eof, []⟩], rfl, .inl ⟨⟨leafNode, rfl⟩, .inl .nil⟩⟩
    | c :: t, hf =>
      by_cases hc1 : c = ')'
      · subst hc1
        refine ⟨[⟨.error, []⟩], rfl, verdict_error ?_ _⟩
        rintro (h | ⟨_, n, r, h1, h2, _⟩)
        · rcases plainTail_cases h with h | ⟨n, r, h, _⟩ | ⟨t', r, h, h2, _⟩
          · simp at h
          · simp at h
          · exact not_segment_of_head (by decide) (by decide) h h2
        · obtain ⟨c, u, rfl, hc⟩ := name_first h2
          simp only [List.cons_append, List.cons.injEq] at h1
          rw [← h1.1] at hc
          exact hc (by decide)
      · by_cases hc2 : c = '.'
        · subst hc2
          exact hdot t hf
        · have hsp : lexSubPath ⟨[], c :: t, last⟩ =
              if peekBracketQuote '\'' (c :: t) || peekBracketQuote '"' (c :: t) then handleBracket ⟨[], c :: t, last⟩
              else if last = .eof then some (handleChild ⟨[], c :: t, last⟩ .undottedChild)
              else some (Lexer.errorf ⟨[], c :: t, last⟩) := by
            unfold lexSubPath
            split
            · rename_i h; simp only [List.cons.injEq] at h; exact absurd h.1 hc1
            · rename_i h; simp at h
            · rename_i h; simp only [List.cons.injEq] at h; exact absurd h.1 hc2
            · rfl
          by_cases hp : (peekBracketQuote '\'' (c :: t) || peekBracketQuote '"' (c :: t)) = true
          · -- a bracket
            rw [if_pos hp] at hsp
            have hacc : Accepts last (c :: t) ↔ ∃ u r, c :: t = u ++ r ∧ BracketSegment u ∧ PlainTail r := by
              constructor
              · rintro (h | ⟨_, n, r, h1, h2, h3⟩)
                · rcases plainTail_cases h with h | ⟨n, r, h, _⟩ | h
                  · simp at h
                  · simp only [List.cons.injEq] at h; exact absurd h.1 hc2
                  · exact h
                · obtain ⟨a, s, ha, hs, _⟩ := (peekBracket_iff _).1 hp
                  rw [h1] at hs
                  -- the name is a prefix of the white space
                  have hpre : ∃ a', a = n ++ a' := by
                    have : ∀ (n a r s : Str), (∀ c ∈ n, c ∉ specialChars) → n ++ r = a ++ '[' :: s → ∃ a', a = n ++ a' := by
                      intro n
                      induction n with
                      | nil => intro a r s _ _; exact ⟨a, rfl⟩
                      | cons x n ihn =>
                        intro a r s hn he
                        cases a with
                        | nil =>
                          simp only [List.cons_append, List.nil_append, List.cons.injEq] at he
                          exact absurd (by rw [he.1]; decide) (hn x (by simp))
                        | cons y a =>
                          simp only [List.cons_append, List.cons.injEq] at he
                          obtain ⟨a', ha'⟩ := ihn a r s (fun z hz => hn z (by simp [hz])) he.2
                          exact ⟨a', by rw [ha', he.1]; rfl⟩
                    exact this n a r s h2.2 hs
                  obtain ⟨a', rfl⟩ := hpre
                  rw [List.append_assoc] at hs
                  have hr := List.append_cancel_left hs
                  have hbr : '[' ∈ r := by rw [hr]; simp
                  have hna : Space n := fun x hx => ha x (by simp [hx])
                  have ha2 : Space a' := fun x hx => ha x (by simp [hx])
                  rcases plainTail_cases h3 with rfl | ⟨n', r', rfl, _⟩ | ⟨u, r', hu, ⟨b, x, d, hb, hx, hd, rfl⟩, hr'⟩
                  · simp at hbr
                  · exfalso
                    cases a' with
                    | nil => simp at hr
                    | cons y a' =>
                      simp only [List.cons_append, List.cons.injEq] at hr
                      have := ha2 y (by simp)
                      rw [← hr.1] at this
                      revert this; decide
                  · refine ⟨n ++ (b ++ '[' :: (x ++ d ++ [']'])), r', by rw [h1, hu]; simp, ?_, hr'⟩
                    exact ⟨n ++ b, x, d, by
                      intro y hy
                      rcases List.mem_append.1 hy with hy | hy
                      · exact hna y hy
                      · exact hb y hy, hx, hd, by simp⟩
              · rintro ⟨u, r, h1, h2, h3⟩
                rw [h1]
                exact .inl (.bracket u r h2 h3)
            rcases handleBracket_sound ⟨[], c :: t, last⟩ hp with herr | ⟨u, r, hu, hur, hok⟩
            · refine ⟨[⟨.error, []⟩], ?_, verdict_error ?_ _⟩
              · rw [lexRun]; simp only [lexStep, hsp, herr, Lexer.errorf]
              · rw [hacc]
                rintro ⟨u, r, h1, h2, _⟩
                obtain ⟨_, h4⟩ := handleBracket_complete ⟨[], c :: t, last⟩ u r h2 h1
                rw [herr] at h4
                simp [Lexer.errorf] at h4
            · simp only at hur
              have hlen : r.length < fuel := by
                have := congrArg List.length hur
                obtain ⟨a, s, _, rfl⟩ := bracketSegment_head hu
                simp only [List.length_append, List.length_cons] at this hf
                omega
              obtain ⟨ls, h1, h2⟩ := ih ⟨[], r, .bracketChild⟩ rfl hlen
              refine ⟨_, lexRun_step (by rw [lexStep, hsp, hok]) rfl h1, ?_⟩
              refine Verdict.congr ?_ (Verdict.cons (fun sub => mapNode (bracketChildNames (bracketBody ([] ++ u))) sub) rfl h2)
              rw [hacc]
              constructor
              · rintro (h | ⟨h, _⟩)
                · exact ⟨u, r, hur, hu, h⟩
                · cases h
              · rintro ⟨u', r', h3, h4, h5⟩
                obtain ⟨_, h6⟩ := handleBracket_complete ⟨[], c :: t, last⟩ u' r' h4 h3
                rw [hok, Option.some.injEq, Step.mk.injEq, Lexer.mk.injEq] at h6
                exact .inl (h6.1.2.1 ▸ h5)
          · rw [if_neg hp] at hsp
            have hnb : ∀ u r, c :: t = u ++ r → ¬ BracketSegment u := by
              intro u r h1 h2
              exact hp (handleBracket_complete ⟨[], c :: t, last⟩ u r h2 h1).1
            have hnt : ¬ PlainTail (c :: t) := by
              intro h
              rcases plainTail_cases h with h | ⟨n, r, h, _⟩ | ⟨u, r, h1, h2, _⟩
              · simp at h
              · simp only [List.cons.injEq] at h; exact hc2 h.1
              · exact hnb u r h1 h2
            by_cases hl : last = .eof
            · rw [if_pos hl] at hsp
              unfold handleChild at hsp
              simp only at hsp
              by_cases he : (spanChild (c :: t)).1 = []
              · rw [if_pos (by simpa using he)] at hsp
                refine ⟨[⟨.error, []⟩], ?_, verdict_error ?_ _⟩
                · rw [lexRun]; simp only [lexStep, hsp, Lexer.errorf]
                · rintro (h | ⟨_, n, r, h1, h2, _⟩)
                  · exact hnt h
                  · change c :: t = n ++ r at h1
                    rw [h1] at he
                    exact spanChild_nonempty h2 he
              · rw [if_neg (by simpa using he)] at hsp
                simp only [Lexer.emit, Lexer.advance] at hsp
                have hlen : (spanChild (c :: t)).2.length < fuel := by
                  have := congrArg List.length (spanChild_eq (c :: t))
                  have h0 : 0 < (spanChild (c :: t)).1.length := List.length_pos_iff.2 he
                  simp only [List.length_append, List.length_cons] at this hf
                  omega
                obtain ⟨ls, h1, h2⟩ := ih ⟨[], (spanChild (c :: t)).2, .undottedChild⟩ rfl hlen
                refine ⟨_, lexRun_step (by rw [lexStep, hsp]) rfl h1, ?_⟩
                have hns := notStar (spanChild_name (c :: t))
                refine Verdict.congr ?_ (Verdict.cons (fun sub => mapNode [unescape (spanChild (c :: t)).1] sub) ?_ h2)
                · constructor
                  · rintro (h | ⟨h, _⟩)
                    · exact .inr ⟨hl, _, _, (spanChild_eq (c :: t)).symm, ⟨he, spanChild_name _⟩, h⟩
                    · cases h
                  · rintro (h | ⟨_, n, r, h3, h4, h5⟩)
                    · exact absurd h hnt
                    · refine .inl ?_
                      change c :: t = n ++ r at h3
                      show PlainTail (spanChild (c :: t)).2
                      rw [h3, spanChild_prefix n r h4.2]
                      exact plainTail_spanChild h5
                · rw [newPath]
                  simp only [List.nil_append, hns.1, if_false]
            · rw [if_neg hl] at hsp
              refine ⟨[⟨.error, []⟩], ?_, verdict_error ?_ _⟩
              · rw [lexRun]; simp only [lexStep, hsp, Lexer.errorf]
              · rintro (h | ⟨h, _⟩)
                · exact hnt h
                · exact hl h

/-- Building a path succeeds exactly on plain paths, and fails with the syntax
error otherwise. -/
theorem buildPath_verdict (s : Str) :
    ((∃ n, buildPath s = .ok n) ∧ PlainPath s) ∨ (buildPath s = .err .invalidPathSyntax ∧ ¬ PlainPath s) := by
  unfold buildPath lexAll lexInit
  match s with
  | [] => exact .inl ⟨⟨leafNode, rfl⟩, .inr ⟨by simp, .inl .nil⟩⟩
  | c :: t =>
    by_cases hc : c = '$'
    · subst hc
      obtain ⟨ls, h1, h2⟩ := subPath_accepts (t.length + 2) ⟨[], t, .root⟩ rfl (by simp)
      have hrun : lexRun (('$' :: t).length + 3) .path ⟨[], '$' :: t, .eof⟩ = .done ([] ++ ([⟨.root, ['$']⟩] ++ ls)) := by
        simp only [List.length_cons]
        rw [show t.length + 1 + 3 = (t.length + 2) + 1 + 1 by omega]
        exact lexRun_step (s := ⟨⟨[], '$' :: t, .eof⟩, [], some .root⟩) rfl rfl
          (lexRun_step (s := ⟨⟨[], t, .root⟩, [⟨.root, ['$']⟩], some .subPath⟩) rfl rfl h1)
      rw [hrun]
      have : PlainPath ('$' :: t) ↔ Accepts .root t := by
        unfold PlainPath Accepts
        simp only [List.head?_cons, ne_eq, not_true_eq_false, false_and, or_false, List.cons.injEq, true_and,
          reduceCtorEq]
        constructor
        · rintro ⟨r, rfl, h⟩; exact h
        · intro h; exact ⟨t, rfl, h⟩
      rw [this]
      exact Verdict.cons docNode rfl h2
    · obtain ⟨ls, h1, h2⟩ := subPath_accepts (t.length + 3) ⟨[], c :: t, .eof⟩ rfl (by simp)
      have hp : lexPath ⟨[], c :: t, .eof⟩ = ⟨⟨[], c :: t, .eof⟩, [⟨.root, ['$']⟩], some .subPath⟩ := by
        unfold lexPath
        split
        · rename_i h; simp at h
        · rename_i h; simp only [List.cons.injEq] at h; exact absurd h.1 hc
        · rfl
      have hrun : lexRun ((c :: t).length + 3) .path ⟨[], c :: t, .eof⟩ = .done ([⟨.root, ['$']⟩] ++ ls) := by
        simp only [List.length_cons]
        rw [show t.length + 1 + 3 = (t.length + 3) + 1 by omega]
        exact lexRun_step (by rw [lexStep, hp]) rfl h1
      rw [hrun]
      have : PlainPath (c :: t) ↔ Accepts .eof (c :: t) := by
        unfold PlainPath Accepts
        simp only [List.head?_cons, ne_eq, Option.some.injEq, hc, not_false_iff, true_and, List.cons.injEq,
          false_and, exists_false, false_or]
      rw [this]
      exact Verdict.cons docNode rfl h2

end Yot
