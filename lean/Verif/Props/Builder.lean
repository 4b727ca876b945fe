import Verif.Lemmas.Segments
import Verif.Props.Apply
/-
C28-C31: the path builder and the fallback to injectPath.
-/
namespace Yot
open Spec Ex

/-! ### C29 -/

/-- C29: building a path succeeds exactly for plain paths. -/
theorem C29_accepts_exactly_plain_paths (s : Str) : (∃ n, buildPath s = .ok n) ↔ PlainPath s := by
  rcases buildPath_verdict s with ⟨h1, h2⟩ | ⟨h1, h2⟩
  · exact ⟨fun _ => h2, fun _ => h1⟩
  · refine ⟨?_, fun h => absurd h h2⟩
    rintro ⟨n, hn⟩
    rw [h1] at hn
    cases hn

/-- C29: everything else is rejected with the invalid-path-syntax error. -/
theorem C29_rejects_the_rest (s : Str) (h : ¬ PlainPath s) : buildPath s = .err .invalidPathSyntax := by
  rcases buildPath_verdict s with ⟨_, h2⟩ | ⟨h1, _⟩
  · exact absurd h2 h
  · exact h1

theorem quotedList_has_quote {x : Str} (h : QuotedList x) : '\'' ∈ x ∨ '"' ∈ x := by
  have hn : ∀ t, QuotedName t → '\'' ∈ t ∨ '"' ∈ t := by
    rintro t ⟨q, b, rfl | rfl, _, rfl⟩ <;> simp
  cases h with
  | one a t _ ht => rcases hn t ht with h | h <;> simp [h]
  | more a t b r _ ht _ _ => rcases hn t ht with h | h <;> simp [h]

/-- The operators of the query language other than child names: wildcard,
array subscript and filter, property name, and what occurs only in filters. -/
def operatorChars : Str := c!"[*~)&|=!>< "

theorem plainTail_no_operator {s : Str} (h : PlainTail s) (h1 : '\'' ∉ s) (h2 : '"' ∉ s) :
    ∀ c ∈ s, c ∉ operatorChars := by
  have hsub : ∀ c, c ∉ specialChars → c ∉ operatorChars := by
    intro c
    simp only [specialChars, operatorChars, List.mem_cons, List.not_mem_nil, or_false, not_or]
    tauto
  induction h with
  | nil => simp
  | dot n r hn hr ih =>
    simp only [List.mem_cons, List.mem_append, not_or] at h1 h2
    intro c hc
    simp only [List.mem_cons, List.mem_append] at hc
    rcases hc with rfl | hc | hc
    · decide
    · exact hsub c (hn.2 c hc)
    · exact ih h1.2.2 h2.2.2 c hc
  | bracket t r ht hr ih =>
    exfalso
    obtain ⟨a, x, b, _, hx, _, rfl⟩ := ht
    rcases quotedList_has_quote hx with h | h
    · exact h1 (by simp [h])
    · exact h2 (by simp [h])

/-- C29: a path that uses an operator (outside quotes: there are none in it) is
always rejected. -/
theorem C29_operators_rejected (s : Str) (h1 : '\'' ∉ s) (h2 : '"' ∉ s) (c : Char) (hc : c ∈ s)
    (ho : c ∈ operatorChars) : buildPath s = .err .invalidPathSyntax := by
  apply C29_rejects_the_rest
  rintro (⟨r, rfl, h⟩ | ⟨_, h | ⟨n, r, rfl, hn, h⟩⟩)
  · rcases List.mem_cons.1 hc with rfl | hc
    · revert ho; decide
    · exact plainTail_no_operator h (fun hm => h1 (by simp [hm])) (fun hm => h2 (by simp [hm])) c hc ho
  · exact plainTail_no_operator h h1 h2 c hc ho
  · rcases List.mem_append.1 hc with hc | hc
    · have := hn.2 c hc
      revert ho this
      simp only [specialChars, operatorChars, List.mem_cons, List.not_mem_nil, or_false, not_or]
      tauto
    · exact plainTail_no_operator h (fun hm => h1 (by simp [hm])) (fun hm => h2 (by simp [hm])) c hc ho

/-- C29: recursive descent is always rejected. -/
theorem C29_recursive_descent_rejected (s a b : Str) (h1 : '\'' ∉ s) (h2 : '"' ∉ s) (hs : s = a ++ '.' :: '.' :: b) :
    buildPath s = .err .invalidPathSyntax := by
  apply C29_rejects_the_rest
  have key : ∀ s : Str, PlainTail s → '\'' ∉ s → '"' ∉ s → ∀ a b, s ≠ a ++ '.' :: '.' :: b := by
    intro s h
    induction h with
    | nil => intro _ _ a b he; simp at he
    | dot n r hn hr ih =>
      intro g1 g2 a b he
      simp only [List.mem_cons, List.mem_append, not_or] at g1 g2
      cases a with
      | nil =>
        obtain ⟨c, t, rfl, hc⟩ := name_first hn
        simp only [List.nil_append, List.cons_append, List.cons.injEq, true_and] at he
        exact hc (by rw [he.1]; decide)
      | cons x a =>
        simp only [List.cons_append, List.cons.injEq] at he
        -- the two dots are not in the name
        have hcut : ∀ (n : Str) (a : Str), (∀ c ∈ n, c ∉ specialChars) → n ++ r = a ++ '.' :: '.' :: b →
            ∃ a', r = a' ++ '.' :: '.' :: b := by
          intro n
          induction n with
          | nil => intro a _ h; exact ⟨a, h⟩
          | cons y n ihn =>
            intro a hy h
            cases a with
            | nil =>
              simp only [List.cons_append, List.nil_append, List.cons.injEq] at h
              exact absurd (by rw [h.1]; decide) (hy y (by simp))
            | cons z a =>
              simp only [List.cons_append, List.cons.injEq] at h
              exact ihn a (fun c hc => hy c (by simp [hc])) h.2
        obtain ⟨a', ha'⟩ := hcut n a hn.2 he.2
        exact ih g1.2.2 g2.2.2 a' b ha'
    | bracket t r ht hr ih =>
      intro g1 g2 a b _
      obtain ⟨a, x, b, _, hx, _, rfl⟩ := ht
      rcases quotedList_has_quote hx with h | h
      · exact g1 (by simp [h])
      · exact g2 (by simp [h])
  rintro (⟨r, rfl, h⟩ | ⟨_, h | ⟨n, r, rfl, hn, h⟩⟩)
  · simp only [List.mem_cons, not_or] at h1 h2
    cases a with
    | nil => simp at hs
    | cons x a =>
      simp only [List.cons_append, List.cons.injEq] at hs
      exact key r h h1.2 h2.2 a b hs.2
  · exact key s h h1 h2 a b hs
  · have : PlainTail ('.' :: (n ++ r)) := .dot n r hn h
    exact key _ this (by simpa using h1) (by simpa using h2) ('.' :: a) b (by rw [hs]; rfl)

example : PlainPath c!"$.spec['a.b/c'].x" := by
  rw [← C29_accepts_exactly_plain_paths]
  exact ⟨_, rfl⟩
example : ¬ PlainPath c!"spec.containers[0]" ∧ ¬ PlainPath c!"..a" ∧ ¬ PlainPath c!"a.*" ∧
    ¬ PlainPath c!"a[?(@.b=='c')]" ∧ ¬ PlainPath c!"a~" := by
  have : ∀ s, buildPath s = .err .invalidPathSyntax → ¬ PlainPath s := by
    intro s h hp
    rw [← C29_accepts_exactly_plain_paths] at hp
    obtain ⟨n, hn⟩ := hp
    rw [h] at hn; cases hn
  exact ⟨this _ rfl, this _ rfl, this _ rfl, this _ rfl, this _ rfl⟩

/-! ### C30 -/

theorem dots_eq (n : Str) (ns : List Str) :
    '.' :: dotted (n :: ns) = ((n :: ns).map Segment.dot).flatMap Segment.text := by
  induction ns generalizing n with
  | nil => simp [dotted, Segment.text]
  | cons m ns ih =>
    rw [dotted, List.map_cons, List.flatMap_cons, ← ih m]
    · simp [Segment.text]
    · simp

theorem map_dot_name (ns : List Str) : (ns.map Segment.dot).map Segment.name = ns := by
  induction ns with
  | nil => rfl
  | cons n ns ih => simp [Segment.name] at ih ⊢; exact ih

/-- C30: `$.n1.n2...nk` builds a document with nested single-key mappings and an
empty leaf. -/
theorem C30_dotted_with_root (n : Str) (ns : List Str) (h : ∀ x ∈ n :: ns, PlainName x) :
    buildPath ('$' :: '.' :: dotted (n :: ns)) = .ok (inDocument (nested (n :: ns))) := by
  rw [dots_eq]
  obtain ⟨ls, h1, h2⟩ := run_segments ((n :: ns).map Segment.dot)
    (by simp only [List.mem_map]; rintro s ⟨x, hx, rfl⟩; exact h x hx)
    ((((n :: ns).map Segment.dot).flatMap Segment.text).length + 2) .root (by omega)
  rw [buildPath_root _ ls h1, h2, builtPath_dots]
  rfl

/-- C30: the same without `$.`.  (A first name that starts with `$` would be taken
for the root.) -/
theorem C30_dotted_without_root (n : Str) (ns : List Str) (h : ∀ x ∈ n :: ns, PlainName x)
    (hd : n.head? ≠ some '$') :
    buildPath (dotted (n :: ns)) = .ok (inDocument (nested (n :: ns))) := by
  obtain ⟨⟨hne, hn⟩, hbs⟩ := h n (by simp)
  have hrest : ∀ s ∈ ns.map Segment.dot, s.Written := by
    simp only [List.mem_map]; rintro s ⟨x, hx, rfl⟩; exact h x (by simp [hx])
  have heq : dotted (n :: ns) = n ++ (ns.map Segment.dot).flatMap Segment.text := by
    cases ns with
    | nil => simp [dotted]
    | cons m ns => rw [← dots_eq, dotted]; simp
  rw [heq]
  cases hc : n with
  | nil => exact absurd hc hne
  | cons c t =>
    have hcd : c ≠ '$' := by rintro rfl; rw [hc] at hd; simp at hd
    obtain ⟨ls, h1, h2⟩ := run_segments (ns.map Segment.dot) hrest
      ((t ++ (ns.map Segment.dot).flatMap Segment.text).length + 2) .undottedChild
      (by simp only [List.length_append]; omega)
    have hcs : c ∉ specialChars := hn c (by rw [hc]; simp)
    have hspan : spanChild (c :: (t ++ (ns.map Segment.dot).flatMap Segment.text)) =
        (c :: t, (ns.map Segment.dot).flatMap Segment.text) := by
      have := spanChild_append n _ hn (segments_head _ hrest)
      rw [hc] at this
      exact this
    have hnobr : (peekBracketQuote '\'' (c :: (t ++ (ns.map Segment.dot).flatMap Segment.text)) ||
        peekBracketQuote '"' (c :: (t ++ (ns.map Segment.dot).flatMap Segment.text))) = false := by
      rw [← Bool.not_eq_true, peekBracket_iff]
      rintro ⟨a, u, ha, he, _⟩
      have hbr : '[' ∈ c :: (t ++ (ns.map Segment.dot).flatMap Segment.text) := by rw [he]; simp
      simp only [List.mem_cons, List.mem_append, List.mem_flatMap, List.mem_map] at hbr
      rcases hbr with h' | h' | ⟨s, ⟨x, hx, rfl⟩, h'⟩
      · exact hcs (by rw [← h']; decide)
      · exact hn '[' (by rw [hc]; simp [h']) (by decide)
      · simp only [Segment.text, List.mem_cons] at h'
        rcases h' with h' | h'
        · cases h'
        · exact (h x (by simp [hx])).1.2 '[' h' (by decide)
    have hstep : lexStep .subPath ⟨[], c :: (t ++ (ns.map Segment.dot).flatMap Segment.text), .eof⟩ =
        some ⟨⟨[], (ns.map Segment.dot).flatMap Segment.text, .undottedChild⟩, [⟨.undottedChild, c :: t⟩], some .subPath⟩ := by
      rw [lexStep]
      unfold lexSubPath
      split
      · next he => simp only [List.cons.injEq] at he; exact absurd (by rw [he.1]; decide) hcs
      · next he => simp at he
      · next he => simp only [List.cons.injEq] at he; exact absurd (by rw [he.1]; decide) hcs
      · simp only [hnobr, Bool.false_eq_true, if_false, if_true]
        unfold handleChild
        simp only [hspan, List.isEmpty_cons, Bool.false_eq_true, if_false]
        rfl
    rw [List.cons_append, buildPath_noroot c _ hcd _ (lexRun_step hstep rfl h1)]
    have hns := notStar hn
    rw [hc] at hns hbs
    simp only [List.cons_append, List.nil_append]
    rw [newPath]
    simp only [hns.1, if_false, h2]
    rw [unescape_plain _ hbs, builtPath_dots]
    rfl

example : PlainName c!"my-key_1/x" := ⟨⟨by decide, by decide⟩, by decide⟩
example : buildPath c!"a.b" = .ok (dc (.mk { kind := .mapping, nilc := false } [.mk { kind := .scalar, value := c!"a" } [],
    .mk { kind := .mapping, nilc := false } [.mk { kind := .scalar, value := c!"b" } [], .mk { kind := .scalar } []]])) := by
  decide

/-! ### C31 -/

/-- C31, exactly: a path of dotted and quoted names builds the keys with these names if and only if no
quoted name has an odd number of the other kind of quotes between two of its commas. -/
theorem C31_exactly (segs : List Segment) (h : ∀ s ∈ segs, s.Written) :
    buildPath ('$' :: segs.flatMap Segment.text) = .ok (inDocument (nested (segs.map Segment.name))) ↔
      ∀ q n, Segment.quoted q n ∈ segs → ¬ Splits q n := by
  obtain ⟨ls, h1, h2⟩ := run_segments segs h ((segs.flatMap Segment.text).length + 2) .root (by omega)
  rw [buildPath_root _ ls h1, h2]
  have h3 : (∀ s ∈ segs, builtNames s = [s.name]) ↔ ∀ q n, Segment.quoted q n ∈ segs → ¬ Splits q n := by
    constructor
    · intro h' q n hm
      exact ((builtNames_iff (h _ hm)).1 (h' _ hm)).2
    · intro h' s hs
      rw [builtNames_iff (h s hs)]
      refine ⟨h s hs, ?_⟩
      cases s with
      | dot n => trivial
      | quoted q n => exact h' q n hs
  rw [← h3, ← builtPath_iff]
  constructor
  · intro e
    have e1 := Res.ok.inj e
    have e2 := congrArg Node.content e1
    simpa [docNode, inDocument] using e2
  · intro e
    rw [e]
    rfl

/-- C31 (partial): in any path of dotted and quoted names, each quoted name builds
exactly the key with that name, unless it has an odd number of the other kind of quotes
between two of its commas.  Missing: such names (`C31_comma_and_quote`). -/
theorem C31_quoted_names_partial (segs : List Segment) (h : ∀ s ∈ segs, s.Ok) :
    buildPath ('$' :: segs.flatMap Segment.text) = .ok (inDocument (nested (segs.map Segment.name))) :=
  (C31_exactly segs (fun s hs => (h s hs).1)).2 (fun _ _ hm => (h _ hm).2)

/-- C31: the names that can be written in some quotes. -/
theorem C31_expressible (n : Str) :
    (∃ q, (q = '\'' ∨ q = '"') ∧ buildPath ('$' :: bracketed q n) = .ok (inDocument (nested [n]))) ↔
      ¬ (Splits '\'' n ∧ Splits '"' n) := by
  have key : ∀ q, (q = '\'' ∨ q = '"') →
      (buildPath ('$' :: bracketed q n) = .ok (inDocument (nested [n])) ↔ ¬ Splits q n) := by
    intro q h1
    have := C31_exactly [.quoted q n] (by simp [Segment.Written, h1])
    simpa [Segment.text, Segment.name] using this
  constructor
  · rintro ⟨q, hq, hb⟩ ⟨h1, h2⟩
    have := (key q hq).1 hb
    rcases hq with rfl | rfl
    · exact this h1
    · exact this h2
  · intro h
    by_cases h1 : Splits '\'' n
    · exact ⟨'"', .inr rfl, (key _ (.inr rfl)).2 (fun h2 => h ⟨h1, h2⟩)⟩
    · exact ⟨'\'', .inl rfl, (key _ (.inl rfl)).2 h1⟩

theorem looseQuotes_absent (o : Char) (m : Str) (h : o ∉ m) : ∀ p, looseQuotes o p m = 0 := by
  induction m with
  | nil => intro p; rfl
  | cons c m ih =>
    intro p
    simp only [List.mem_cons, not_or] at h
    rw [looseQuotes, if_neg (fun e => h.1 e.1.symm), ih h.2]

/-- A name without a comma, or without the other kind of quote, is never split. -/
theorem not_splits (q : Char) (n : Str) (h : ',' ∉ n ∨ otherQuote q ∉ n) : ¬ Splits q n := by
  rintro ⟨a, m, b, rfl, _, hodd⟩
  rcases h with h | h
  · simp at h
  · have : otherQuote q ∉ m := fun hm => h (by simp [hm])
    rw [looseQuotes_absent _ m this] at hodd
    cases hodd

/-- C31 is false for a name with the other quote between commas: it is split. -/
theorem C31_comma_and_quote :
    ∃ n, buildPath ('$' :: bracketed '\'' n) ≠ .ok (inDocument (nested [n])) :=
  ⟨c!"a,\"b,c", by decide⟩

/-- C31: a bracket with several quoted names builds a mapping with exactly those
keys, for names without comma, quote and backslash. -/
theorem C31_several_names (q : Char) (hq : q = '\'' ∨ q = '"') (ns : List Str) (hne : ns ≠ [])
    (h : ∀ n ∈ ns, ',' ∉ n ∧ '\'' ∉ n ∧ '"' ∉ n ∧ '\\' ∉ n) :
    buildPath ('$' :: bracketedList q ns) = .ok (inDocument (mappingOf ns (nested []))) := by
  obtain ⟨hb, hsp, hcm⟩ := quoteChar_facts hq
  have hqb : ∀ n : Str, '\'' ∉ n → '"' ∉ n → '\\' ∉ n → QuotedBody q n := by
    intro n
    induction n with
    | nil => intros; exact .nil
    | cons c n ih =>
      intro h1 h2 h3
      simp only [List.mem_cons, not_or] at h1 h2 h3
      refine .plain c n ?_ (fun h => h3.1 h.symm) (ih h1.2 h2.2 h3.2)
      rcases hq with rfl | rfl
      · exact fun h => h1.1 h.symm
      · exact fun h => h2.1 h.symm
  have hql : ∀ ns : List Str, ns ≠ [] → (∀ n ∈ ns, ',' ∉ n ∧ '\'' ∉ n ∧ '"' ∉ n ∧ '\\' ∉ n) →
      QuotedList (joinWith ',' (ns.map fun n => q :: (n ++ [q]))) := by
    intro ns
    induction ns with
    | nil => intro h; exact absurd rfl h
    | cons n ns ih =>
      intro _ h
      obtain ⟨_, h2, h3, h4⟩ := h n (by simp)
      have hn : QuotedName (q :: (n ++ [q])) := ⟨q, n, hq, hqb n h2 h3 h4, rfl⟩
      cases ns with
      | nil => exact QuotedList.one [] _ (by simp [Space]) hn
      | cons m ns =>
        have := QuotedList.more [] _ [] _ (by simp [Space]) hn (by simp [Space])
          (ih (by simp) (fun x hx => h x (by simp [hx])))
        simpa [joinWith] using this
  have hseg : BracketSegment (bracketedList q ns) :=
    ⟨[], _, [], by simp [Space], hql ns hne h, by simp [Space], by simp [bracketedList]⟩
  -- the text between the brackets
  have hends : ∀ ns : List Str, ns ≠ [] →
      ∃ m, joinWith ',' (ns.map fun n => q :: (n ++ [q])) = q :: (m ++ [q]) := by
    intro ns
    induction ns with
    | nil => intro h; exact absurd rfl h
    | cons n ns ih =>
      intro _
      cases ns with
      | nil => exact ⟨n, rfl⟩
      | cons k ns =>
        obtain ⟨m, hm⟩ := ih (by simp)
        refine ⟨n ++ q :: ',' :: q :: m, ?_⟩
        simp only [List.map_cons, joinWith] at hm ⊢
        rw [hm]
        simp
  have hbody : bracketBody (bracketedList q ns) = joinWith ',' (ns.map fun n => q :: (n ++ [q])) := by
    obtain ⟨m, hm⟩ := hends ns hne
    unfold bracketedList
    rw [hm]
    exact bracketBody_eq q q m hsp hsp
  have hsplit : ∀ ns : List Str, ns ≠ [] → (∀ n ∈ ns, ',' ∉ n) →
      splitOn ',' (joinWith ',' (ns.map fun n => q :: (n ++ [q]))) = ns.map fun n => q :: (n ++ [q]) := by
    have hcat : ∀ a b : Str, ',' ∉ a → splitOn ',' (a ++ ',' :: b) = a :: splitOn ',' b := by
      intro a
      induction a with
      | nil => intro b _; simp [splitOn]
      | cons c a ih =>
        intro b hc
        simp only [List.mem_cons, not_or] at hc
        rw [List.cons_append, splitOn, if_neg (fun h => hc.1 h.symm), ih b hc.2]
    have hnc : ∀ n : Str, ',' ∉ n → ',' ∉ q :: (n ++ [q]) := by
      intro n hn
      simp only [List.mem_cons, List.mem_append, List.not_mem_nil, or_false, not_or]
      exact ⟨fun h => hcm h.symm, hn, fun h => hcm h.symm⟩
    intro ns
    induction ns with
    | nil => intro h; exact absurd rfl h
    | cons n ns ih =>
      intro _ h
      cases ns with
      | nil => exact splitOn_absent _ _ (hnc n (h n (by simp)))
      | cons m ns =>
        have h2 := ih (by simp) (fun x hx => h x (by simp [hx]))
        simp only [List.map_cons, joinWith] at h2 ⊢
        rw [hcat _ _ (hnc n (h n (by simp))), h2]
  have hregroup : ∀ ns : List Str, (∀ n ∈ ns, '\'' ∉ n ∧ '"' ∉ n ∧ '\\' ∉ n) →
      regroup [] (ns.map fun n => q :: (n ++ [q])) = ns.map fun n => q :: (n ++ [q]) := by
    intro ns
    induction ns with
    | nil => intro _; rfl
    | cons n ns ih =>
      intro h
      obtain ⟨h1, h2, h3⟩ := h n (by simp)
      have hbal : ∀ (n : Str) p, '\\' ∉ n → p ≠ some '\\' → q ∉ n → balancedGo q false p (n ++ [q]) = true := by
        intro n
        induction n with
        | nil => intro p _ hp _; rw [List.nil_append, balancedGo, if_pos ⟨rfl, hp⟩]; rfl
        | cons c n ihn =>
          intro p g1 hp g2
          simp only [List.mem_cons, not_or] at g1 g2
          rw [List.cons_append, balancedGo, if_neg (fun h => g2.1 h.1.symm)]
          exact ihn _ g1.2 (by simpa using fun h => g1.1 h.symm) g2.2
      have hbq : balanced (q :: (n ++ [q])) q = true := by
        unfold balanced
        rw [balancedGo, if_pos ⟨rfl, by simp⟩]
        refine hbal n _ h3 (by simpa using hb) ?_
        rcases hq with rfl | rfl <;> assumption
      have hb2 : (balanced (q :: (n ++ [q])) '\'' && balanced (q :: (n ++ [q])) '"') = true := by
        rcases hq with rfl | rfl
        · have : balanced ('\'' :: (n ++ ['\''])) '"' = true := balancedGo_absent _ _ (by simp [h2]) _ _
          rw [hbq, this]; rfl
        · have : balanced ('"' :: (n ++ ['"'])) '\'' = true := balancedGo_absent _ _ (by simp [h1]) _ _
          rw [hbq, this]; rfl
      rw [List.map_cons, regroup, if_pos hb2]
      simp only [List.isEmpty_nil, if_true]
      rw [ih (fun x hx => h x (by simp [hx]))]
  have hnames : bracketChildNames (bracketBody (bracketedList q ns)) = ns := by
    unfold bracketChildNames
    rw [hbody, hsplit ns hne (fun n hn => (h n hn).1),
      hregroup ns (fun n hn => ⟨(h n hn).2.1, (h n hn).2.2.1, (h n hn).2.2.2⟩), List.map_map]
    have : ∀ n ∈ ns, (unquoteChild ∘ fun n => q :: (n ++ [q])) n = n := by
      intro n hn
      show unquoteChild (q :: (n ++ [q])) = n
      rw [unquoteChild_quoted q n hq, unescape_plain n (h n hn).2.2.2]
    rw [List.map_congr_left this, List.map_id'']
    intro x; rfl
  obtain ⟨h3, h4⟩ := handleBracket_complete ⟨[], bracketedList q ns, .root⟩ _ [] hseg (by simp)
  have hstep : lexStep .subPath ⟨[], bracketedList q ns, .root⟩ =
      some ⟨⟨[], [], .bracketChild⟩, [⟨.bracketChild, [] ++ bracketedList q ns⟩], some .subPath⟩ := by
    rw [← h4, lexStep]
    unfold lexSubPath
    split
    · next he => simp [bracketedList] at he
    · next he => simp [bracketedList] at he
    · next he => simp [bracketedList] at he
    · rw [if_pos h3]
  have hlast : lexRun ((bracketedList q ns).length + 1) .subPath ⟨[], [], .bracketChild⟩ =
      .done [⟨.identity, []⟩, ⟨.eof, []⟩] := rfl
  rw [buildPath_root _ _ (lexRun_step hstep rfl hlast)]
  simp only [List.cons_append, List.nil_append]
  rw [newPath]
  simp only [hnames]
  rfl

example : (Segment.quoted '\'' c!"it's, a.b[0]\\").Ok :=
  ⟨.inl rfl, not_splits _ _ (.inr (by decide))⟩
example : (Segment.quoted '"' c!"it's, a.b[0]\\").Ok := by
  refine ⟨.inr rfl, ?_⟩
  rintro ⟨a, m, b, e, _⟩
  have := congrArg (fun s => s.count ',') e
  simp [List.count_append, List.count_cons] at this
  omega
example : ¬ (Segment.quoted '"' c!"a,it's,b").Ok :=
  fun h => h.2 ⟨c!"a", c!"it's", c!"b", by decide, by decide, by decide⟩

/-! ### C28 -/

theorem newPaths_ok (paths : List Str) (h : ∀ p ∈ paths, PlainPath p) : ∃ ns, newPaths paths = .ok ns := by
  unfold newPaths
  induction paths with
  | nil => exact ⟨[], rfl⟩
  | cons p ps ih =>
    obtain ⟨ns, h2⟩ := ih (fun q hq => h q (by simp [hq]))
    obtain ⟨n, h1⟩ := (C29_accepts_exactly_plain_paths p).2 (h p (by simp))
    exact ⟨n :: ns, by rw [List.mapM_cons, h1, h2]; rfl⟩

theorem newPaths_err (paths : List Str) (h : ¬ ∀ p ∈ paths, PlainPath p) :
    newPaths paths = .err .invalidPathSyntax := by
  unfold newPaths
  induction paths with
  | nil => exact absurd (by simp) h
  | cons p ps ih =>
    rw [List.mapM_cons]
    rcases buildPath_verdict p with ⟨⟨n, h1⟩, h2⟩ | ⟨h1, _⟩
    · have : ¬ ∀ q ∈ ps, PlainPath q := by
        intro hall
        apply h
        intro q hq
        rcases List.mem_cons.1 hq with rfl | hq
        · exact h2
        · exact hall q hq
      rw [h1, Res.bind_ok, ih this]
      rfl
    · rw [h1]; rfl

/-- C28: if some query is not a plain path and there is no injectPath, the
document is unchanged and there is no error. -/
theorem C28_no_injectPath (E : Sed) (dflt : Str) (o : Overlay) (doc : Node)
    (hm : ¬ ∃ m, Matches o.query doc m) (hq : ¬ ∀ q ∈ o.query, PlainPath q.str)
    (hi : o.onMissing.injectPath = none) : apply E dflt o doc = .ok doc := by
  by_cases hQ : Qualifies o doc
  · by_cases hI : Injects dflt o.onMissing
    · rw [(C18_otherwise E dflt o doc hQ).2 hm hI]
      unfold handleInjectPath
      rw [newPaths_err _ (by simpa using hq)]
      simp only [hi]
    · exact C18_unqualified_overlay_is_identity E dflt o doc (.inr ⟨hm, hI⟩)
  · exact C18_unqualified_overlay_is_identity E dflt o doc (.inl hQ)

/-- C28: if some query is not a plain path and there is an injectPath, the outcome
is that of the same overlay with the injectPath (of plain paths that match nothing
yet) as its query. -/
theorem C28_injectPath (E : Sed) (dflt : Str) (o : Overlay) (doc : Node) (ip : List Query)
    (hm : ¬ ∃ m, Matches o.query doc m) (hq : ¬ ∀ q ∈ o.query, PlainPath q.str)
    (hi : o.onMissing.injectPath = some ip)
    (hp : ∀ q ∈ ip, PlainPath q.str) (hip : ¬ ∃ m, Matches ip doc m) :
    apply E dflt o doc = apply E dflt { o with query := ip } doc := by
  by_cases hQ : Qualifies o doc
  · have hQ' : Qualifies { o with query := ip } doc := hQ
    by_cases hI : Injects dflt o.onMissing
    · rw [(C18_otherwise E dflt o doc hQ).2 hm hI, (C18_otherwise E dflt { o with query := ip } doc hQ').2 hip hI]
      unfold handleInjectPath
      rw [newPaths_err _ (by simpa using hq)]
      obtain ⟨ns, hns⟩ := newPaths_ok (ip.map Query.str) (by simpa using hp)
      simp only [hi, hns]
      rfl
    · rw [C18_unqualified_overlay_is_identity E dflt o doc (.inr ⟨hm, hI⟩),
        C18_unqualified_overlay_is_identity E dflt { o with query := ip } doc (.inr ⟨hip, hI⟩)]
  · rw [C18_unqualified_overlay_is_identity E dflt o doc (.inl hQ),
      C18_unqualified_overlay_is_identity E dflt { o with query := ip } doc (.inl hQ)]

/-- C28: if all queries are plain paths the injectPath plays no role. -/
theorem C28_plain_ignores_injectPath (E : Sed) (dflt : Str) (o : Overlay) (doc : Node) (ip : Option (List Query))
    (hm : ¬ ∃ m, Matches o.query doc m) (hq : ∀ q ∈ o.query, PlainPath q.str) :
    apply E dflt o doc = apply E dflt { o with onMissing := { o.onMissing with injectPath := ip } } doc := by
  by_cases hQ : Qualifies o doc
  · have hQ' : Qualifies { o with onMissing := { o.onMissing with injectPath := ip } } doc := hQ
    by_cases hI : Injects dflt o.onMissing
    · have hI' : Injects dflt { o.onMissing with injectPath := ip } := hI
      rw [(C18_otherwise E dflt o doc hQ).2 hm hI, (C18_otherwise E dflt _ doc hQ').2 hm hI']
      unfold handleInjectPath
      obtain ⟨ns, hns⟩ := newPaths_ok (o.query.map Query.str) (by simpa using hq)
      simp only [hns]
      rfl
    · have hI' : ¬ Injects dflt { o.onMissing with injectPath := ip } := hI
      rw [C18_unqualified_overlay_is_identity E dflt o doc (.inr ⟨hm, hI⟩),
        C18_unqualified_overlay_is_identity E dflt { o with onMissing := { o.onMissing with injectPath := ip } } doc
          (.inr ⟨hm, hI'⟩)]
  · have hQ' : ¬ Qualifies { o with onMissing := { o.onMissing with injectPath := ip } } doc := hQ
    rw [C18_unqualified_overlay_is_identity E dflt o doc (.inl hQ),
      C18_unqualified_overlay_is_identity E dflt _ doc (.inl hQ')]

/-- **C28** (what the code does, against the documentation's example). When the value is to be injected at an
`injectPath` one of whose paths is not plain, the run ends with the error of the builder. -/
theorem C28_injectPath_not_plain (E : Sed) (dflt : Str) (o : Overlay) (doc : Node) (ip : List Query)
    (hQ : Qualifies o doc) (hI : Injects dflt o.onMissing)
    (hm : ¬ ∃ m, Matches o.query doc m) (hq : ¬ ∀ q ∈ o.query, PlainPath q.str)
    (hi : o.onMissing.injectPath = some ip) (hp : ¬ ∀ q ∈ ip, PlainPath q.str) :
    apply E dflt o doc = .err .invalidPathSyntax := by
  rw [(C18_otherwise E dflt o doc hQ).2 hm hI]
  unfold handleInjectPath
  rw [newPaths_err _ (by simpa using hq)]
  simp only [hi]
  unfold doInjectPath
  rw [newPaths_err _ (by simpa using hp)]
  rfl

/-- **C28**: the documentation's example of an `injectPath` (overlayActions.md, "injectPath Example": query
`..image`, injectPath `spec.template.spec.containers[0].image`) ends with an error on every
document it is meant for, that is without any match: paths with an index cannot be
injected. -/
theorem C28_documentation_counterexample (E : Sed) (dflt : Str) (o : Overlay) (doc : Node) (find find' : Node → List Node)
    (hq : o.query = [⟨c!"..image", find⟩]) (ha : o.onMissing.action = .inject)
    (hi : o.onMissing.injectPath = some [⟨c!"spec.template.spec.containers[0].image", find'⟩])
    (hQ : Qualifies o doc) (hm : ¬ ∃ m, Matches o.query doc m) : apply E dflt o doc = .err .invalidPathSyntax := by
  have h1 : ¬ PlainPath c!"..image" := fun h => by
    have := (C29_accepts_exactly_plain_paths _).2 h
    rw [C29_recursive_descent_rejected c!"..image" [] c!"image" (by decide) (by decide) rfl] at this
    obtain ⟨n, hn⟩ := this
    cases hn
  have h2 : ¬ PlainPath c!"spec.template.spec.containers[0].image" := fun h => by
    have := (C29_accepts_exactly_plain_paths _).2 h
    rw [C29_operators_rejected c!"spec.template.spec.containers[0].image" (by decide) (by decide) '[' (by decide) (by decide)] at this
    obtain ⟨n, hn⟩ := this
    cases hn
  refine C28_injectPath_not_plain E dflt o doc _ hQ (.inl ?_) hm ?_ hi ?_
  · exact ⟨by rw [ha]; decide, ha.symm⟩
  · rw [hq]; intro h; exact h1 (h _ (List.mem_singleton.2 rfl))
  · intro h; exact h2 (h _ (List.mem_singleton.2 rfl))

/-- Such a document: one without any `image`. -/
example : apply noSed c!"" { query := [⟨c!"..image", fun _ => []⟩], value := sc c!"nginx:latest", action := .replace, onMissing := ⟨.inject, some [⟨c!"spec.template.spec.containers[0].image", fun _ => []⟩]⟩ } (dc (mp [sc c!"k", sc c!"v"])).label =
    .err .invalidPathSyntax :=
  C28_documentation_counterexample _ _ _ _ (fun _ => []) (fun _ => []) rfl rfl rfl (.inl rfl)
    (fun ⟨m, _, q, hq, hm⟩ => by rw [List.mem_singleton.1 hq] at hm; simp at hm)

/-- The children of the root with key `k`. -/
def Ex.keyQuery (k : Str) : Query :=
  ⟨k, fun d => d.content.flatMap fun r =>
    (pairs r.content).filterMap fun e => if e.1.hd.value = k then some e.2 else none⟩

/-- An overlay with a non-plain query that matches nothing, and an injectPath. -/
def Ex.fallback : Overlay where
  query := [⟨c!"a[?(@.x)]", fun _ => []⟩]
  value := sc c!"new"
  onMissing := ⟨.inject, some [keyQuery c!"z"]⟩

/-- The value arrives at the injectPath. -/
example : tree (apply noSed c!"" fallback (dc (mp [sc c!"k", sc c!"v"])).label) =
    some (dc (mp [sc c!"k", sc c!"v", .mk { kind := .scalar, value := c!"z" } [], sc c!"new"])) := by decide

end Yot
