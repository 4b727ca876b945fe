import Verif.Lemmas.Accept
import Verif.Lemmas.Lexer
/-
What accepted paths build.
-/
namespace Yot
open Spec

theorem unescapeGo_plain (n r : Str) (h : '\\' ∉ n) : unescapeGo false (n ++ r) = n ++ unescapeGo false r := by
  induction n with
  | nil => rfl
  | cons c n ih =>
    simp only [List.mem_cons, not_or] at h
    rw [List.cons_append, unescapeGo, if_neg (fun e => h.1 e.symm), ih h.2]
    rfl

theorem unescape_plain (n : Str) (h : '\\' ∉ n) : unescape n = n := by
  have := unescapeGo_plain n [] h
  simpa [unescape, unescapeGo] using this

theorem unescape_escape (q : Char) (hq : q ≠ '\\') (n : Str) : unescape (escape q n) = n := by
  unfold unescape escape
  induction n with
  | nil => rfl
  | cons c n ih =>
    rw [List.flatMap_cons]
    by_cases hc : c = q ∨ c = '\\'
    · rw [if_pos hc]
      simp only [List.cons_append, List.nil_append]
      rw [unescapeGo, if_pos rfl]
      simp only [Bool.false_eq_true, if_false]
      rw [unescapeGo]
      by_cases h2 : c = '\\'
      · simp only [h2, if_true]
        rw [ih]
      · simp only [h2, if_false]
        rw [ih]
    · rw [if_neg hc]
      simp only [List.cons_append, List.nil_append]
      rw [unescapeGo, if_neg (fun h => hc (.inr h)), ih]

theorem quotedBody_escape (q : Char) (n : Str) : QuotedBody q (escape q n) := by
  unfold escape
  induction n with
  | nil => exact .nil
  | cons c n ih =>
    rw [List.flatMap_cons]
    by_cases hc : c = q ∨ c = '\\'
    · rw [if_pos hc]
      exact .escaped c _ hc ih
    · rw [if_neg hc]
      exact .plain c _ (fun h => hc (.inl h)) (fun h => hc (.inr h)) ih

theorem bracketSegment_bracketed (q : Char) (n : Str) (hq : q = '\'' ∨ q = '"') : BracketSegment (bracketed q n) := by
  refine ⟨[], q :: (escape q n ++ [q]), [], by simp [Space], ?_, by simp [Space], by simp [bracketed]⟩
  have := QuotedList.one [] (q :: (escape q n ++ [q])) (by simp [Space]) ⟨q, _, hq, quotedBody_escape q n, rfl⟩
  simpa using this

/-! ### Text between brackets -/

theorem trimSpace_ends (a b : Char) (m : Str) (ha : isSpace a = false) (hb : isSpace b = false) :
    trimSpace (a :: (m ++ [b])) = a :: (m ++ [b]) := by
  unfold trimSpace
  rw [List.dropWhile_cons_of_neg (by simp [ha])]
  have : (a :: (m ++ [b])).reverse = b :: (m.reverse ++ [a]) := by simp
  rw [this, List.dropWhile_cons_of_neg (by simp [hb])]
  simp

theorem trimSuffix_last (m : Str) (b : Char) : trimSuffix [b] (m ++ [b]) = m := by
  unfold trimSuffix
  rw [if_pos]
  · simp
  · rw [List.isSuffixOf_iff_suffix]; exact ⟨m, rfl⟩

theorem trimPrefix_first (m : Str) (b : Char) : trimPrefix [b] (b :: m) = m := by
  simp [trimPrefix, hasPrefix]

theorem bracketBody_eq (a b : Char) (m : Str) (ha : isSpace a = false) (hb : isSpace b = false) :
    bracketBody ('[' :: (a :: (m ++ [b]) ++ [']'])) = a :: (m ++ [b]) := by
  unfold bracketBody
  rw [trimSpace_ends '[' ']' _ (by decide) (by decide), trimPrefix_first, trimSuffix_last, trimSpace_ends a b m ha hb]

theorem quoteChar_facts {q : Char} (hq : q = '\'' ∨ q = '"') : q ≠ '\\' ∧ isSpace q = false ∧ q ≠ ',' := by
  rcases hq with rfl | rfl <;> decide

theorem unquoteChild_quoted (q : Char) (m : Str) (hq : q = '\'' ∨ q = '"') :
    unquoteChild (q :: (m ++ [q])) = unescape m := by
  unfold unquoteChild
  rw [trimSpace_ends q q m (quoteChar_facts hq).2.1 (quoteChar_facts hq).2.1]
  rcases hq with rfl | rfl
  · simp only [hasPrefix, List.isPrefixOf, beq_self_eq_true, Bool.and_self, if_true, trimPrefix_first, trimSuffix_last]
  · have : hasPrefix ['\''] ('"' :: (m ++ ['"'])) = false := by simp [hasPrefix, List.isPrefixOf]
    simp only [this, Bool.false_eq_true, if_false, trimPrefix_first, trimSuffix_last]

/-- A character that never toggles. -/
theorem balancedGo_absent (q : Char) (s : Str) (h : q ∉ s) : ∀ b p, balancedGo q b p s = b := by
  induction s with
  | nil => intro b p; rfl
  | cons c t ih =>
    intro b p
    simp only [List.mem_cons, not_or] at h
    rw [balancedGo, if_neg (fun e => h.1 e.1.symm), ih h.2]

/-- Text in which the quote is always preceded by a backslash. -/
def Shielded (q : Char) : Option Char → Str → Prop
  | _, [] => True
  | p, c :: t => (c = q → p = some '\\') ∧ Shielded q (some c) t

theorem balancedGo_shielded (q : Char) (s : Str) : ∀ b p, Shielded q p s → balancedGo q b p s = b := by
  induction s with
  | nil => intro b p _; rfl
  | cons c t ih =>
    intro b p h
    rw [balancedGo, if_neg (fun e => e.2 (h.1 e.1)), ih _ _ h.2]

theorem shielded_weaken (q : Char) (p p' : Option Char) (s : Str) (hp : p ≠ some '\\') (h : Shielded q p s) :
    Shielded q p' s := by
  cases s with
  | nil => trivial
  | cons c t => exact ⟨fun e => absurd (h.1 e) hp, h.2⟩

theorem shielded_escape (q : Char) (hq : q ≠ '\\') (n : Str) : ∀ p, Shielded q p (escape q n) := by
  unfold escape
  induction n with
  | nil => intro p; trivial
  | cons c n ih =>
    intro p
    rw [List.flatMap_cons]
    by_cases hc : c = q ∨ c = '\\'
    · rw [if_pos hc]
      exact ⟨fun e => absurd e.symm hq, fun _ => rfl, ih _⟩
    · rw [if_neg hc]
      exact ⟨fun e => absurd (.inl e) hc, ih _⟩

theorem splitOn_ne_nil (sep : Char) (s : Str) : splitOn sep s ≠ [] := by
  cases s with
  | nil => simp [splitOn]
  | cons c t =>
    rw [splitOn]
    split
    · simp
    · split <;> simp

theorem splitOn_absent (sep : Char) (s : Str) (h : sep ∉ s) : splitOn sep s = [s] := by
  induction s with
  | nil => rfl
  | cons c t ih =>
    simp only [List.mem_cons, not_or] at h
    rw [splitOn, if_neg (fun e => h.1 e.symm), ih h.2]

theorem joinWith_splitOn (sep : Char) (s : Str) : joinWith sep (splitOn sep s) = s := by
  induction s with
  | nil => rfl
  | cons c t ih =>
    rw [splitOn]
    split
    · next h =>
      cases hs : splitOn sep t with
      | nil => exact absurd hs (splitOn_ne_nil _ _)
      | cons x r =>
        rw [joinWith, ← hs, ih, h]
        rfl
    · cases hs : splitOn sep t with
      | nil => exact absurd hs (splitOn_ne_nil _ _)
      | cons x r =>
        rw [hs] at ih
        cases r with
        | nil =>
          simp only [joinWith] at ih ⊢
          rw [ih]
        | cons y r =>
          simp only [joinWith] at ih ⊢
          rw [List.cons_append, ih]

/-- Splitting text with one more character at the end. -/
theorem splitOn_snoc (sep q : Char) (h : q ≠ sep) (s : Str) :
    ∃ xs x, splitOn sep s = xs ++ [x] ∧ splitOn sep (s ++ [q]) = xs ++ [x ++ [q]] := by
  induction s with
  | nil => exact ⟨[], [], rfl, by simp [splitOn, h]⟩
  | cons c t ih =>
    obtain ⟨xs, x, h1, h2⟩ := ih
    rw [List.cons_append, splitOn, splitOn, h1, h2]
    by_cases hc : c = sep
    · exact ⟨[] :: xs, x, by rw [if_pos hc]; rfl, by rw [if_pos hc]; rfl⟩
    · rw [if_neg hc, if_neg hc]
      cases xs with
      | nil => exact ⟨[], c :: x, rfl, rfl⟩
      | cons y ys => exact ⟨(c :: y) :: ys, x, rfl, rfl⟩

theorem splitOn_append (sep : Char) (a b : Str) : splitOn sep (a ++ sep :: b) = splitOn sep a ++ splitOn sep b := by
  induction a with
  | nil => simp [splitOn]
  | cons c t ih =>
    rw [List.cons_append, splitOn, splitOn]
    split
    · rw [ih, List.cons_append]
    · rw [ih]
      cases hs : splitOn sep t with
      | nil => exact absurd hs (splitOn_ne_nil _ _)
      | cons x xs => rfl


theorem splitOn_escape (q : Char) (hq : q ≠ ',') (n : Str) : splitOn ',' (escape q n) = (splitOn ',' n).map (escape q) := by
  induction n with
  | nil => rfl
  | cons c n ih =>
    have he : escape q (c :: n) = (if c = q ∨ c = '\\' then ['\\', c] else [c]) ++ escape q n := rfl
    rw [he, splitOn]
    by_cases hc : c = ','
    · subst hc
      rw [if_neg (by rintro (h | h); exacts [hq h.symm, by cases h]), if_pos rfl, List.singleton_append, splitOn, if_pos rfl, ih]
      rfl
    · rw [if_neg hc]
      cases hs : splitOn ',' n with
      | nil => exact absurd hs (splitOn_ne_nil _ _)
      | cons x r =>
        rw [hs] at ih
        have hx : escape q (c :: x) = (if c = q ∨ c = '\\' then ['\\', c] else [c]) ++ escape q x := rfl
        simp only [List.map_cons, hx] at ih ⊢
        by_cases hb : c = q ∨ c = '\\'
        · rw [if_pos hb]
          simp only [List.cons_append, List.nil_append]
          rw [splitOn, if_neg (by decide), splitOn, if_neg hc, ih]
        · rw [if_neg hb]
          simp only [List.cons_append, List.nil_append]
          rw [splitOn, if_neg hc, ih]

theorem balancedGo_escape (q o : Char) (hqo : o ≠ q) (ho : o ≠ '\\') (m : Str) : ∀ b p,
    balancedGo o b p (escape q m) = (b != decide (looseQuotes o p m % 2 = 1)) := by
  induction m with
  | nil => intro b p; simp [escape, balancedGo, looseQuotes]
  | cons c m ih =>
    intro b p
    have he : escape q (c :: m) = (if c = q ∨ c = '\\' then ['\\', c] else [c]) ++ escape q m := rfl
    rw [he, looseQuotes]
    by_cases hb : c = q ∨ c = '\\'
    · have hco : c ≠ o := by rcases hb with rfl | rfl; exacts [hqo.symm, ho.symm]
      rw [if_pos hb]
      simp only [List.cons_append, List.nil_append]
      rw [balancedGo, if_neg (fun h => ho h.1.symm), balancedGo, if_neg (fun h => hco h.1), ih, if_neg (fun h => hco h.1), Nat.zero_add]
    · rw [if_neg hb]
      simp only [List.cons_append, List.nil_append]
      rw [balancedGo]
      by_cases hc : c = o ∧ p ≠ some '\\'
      · rw [if_pos hc, if_pos hc, ih]
        rcases Nat.mod_two_eq_zero_or_one (looseQuotes o (some c) m) with h | h
        · have : (1 + looseQuotes o (some c) m) % 2 = 1 := by omega
          simp [h, this]
        · have : (1 + looseQuotes o (some c) m) % 2 = 0 := by omega
          simp [h, this]
      · rw [if_neg hc, if_neg hc, ih, Nat.zero_add]

theorem mem_escape {c q : Char} {n : Str} (h : c ∈ escape q n) : c ∈ n ∨ c = '\\' := by
  unfold escape at h
  rw [List.mem_flatMap] at h
  obtain ⟨x, hx, h⟩ := h
  split at h
  · simp only [List.mem_cons, List.not_mem_nil, or_false] at h
    rcases h with rfl | rfl
    · exact .inr rfl
    · exact .inl hx
  · simp only [List.mem_cons, List.not_mem_nil, or_false] at h
    exact .inl (h ▸ hx)

theorem joinWith_cons (sep : Char) (m : Str) (ms : List Str) (h : ms ≠ []) :
    joinWith sep (m :: ms) = m ++ sep :: joinWith sep ms := by
  cases ms with
  | nil => exact absurd rfl h
  | cons y r => rw [joinWith]

/-- Regrouping appends balanced fragments to the name begun, and ends it at one that is not. -/
theorem regroup_run (last : Str) (hl : last ≠ []) : ∀ (ms : List Str) (name : Str), name ≠ [] →
    ((∀ m ∈ ms, (balanced m '\'' && balanced m '"') = true) →
      regroup name (ms ++ [last]) = [name ++ ',' :: joinWith ',' (ms ++ [last])]) ∧
    (regroup name (ms ++ [last]) ≠ []) ∧
    ((∃ m ∈ ms, (balanced m '\'' && balanced m '"') = false) → 2 ≤ (regroup name (ms ++ [last])).length) := by
  have hempty : ∀ ms : List Str, ∀ name, regroup name (ms ++ [last]) ≠ [] := by
    intro ms
    induction ms with
    | nil =>
      intro name
      simp only [List.nil_append, regroup]
      have hl' : last.isEmpty = false := by cases last <;> simp_all
      split <;> split <;> simp [hl']
    | cons m ms ih =>
      intro name
      rw [List.cons_append, regroup]
      split <;> split
      · simp
      · exact ih _
      · exact ih _
      · simp
  intro ms
  induction ms with
  | nil =>
    intro name hn
    have hnil : name.isEmpty = false := by cases name <;> simp_all
    refine ⟨fun _ => ?_, hempty [] name, by simp⟩
    simp only [List.nil_append, regroup, hnil, joinWith]
    split <;> simp
  | cons m ms ih =>
    intro name hn
    have hnil : name.isEmpty = false := by cases name <;> simp_all
    refine ⟨?_, hempty (m :: ms) name, ?_⟩
    · intro h
      rw [List.cons_append, regroup, if_pos (h m (by simp)), hnil]
      simp only [Bool.false_eq_true, if_false]
      rw [(ih _ (by simp)).1 (fun x hx => h x (by simp [hx])), joinWith_cons ',' m (ms ++ [last]) (by simp)]
      simp
    · rintro ⟨x, hx, hxb⟩
      rw [List.cons_append, regroup, hnil]
      simp only [Bool.false_eq_true, if_false]
      by_cases hb : (balanced m '\'' && balanced m '"') = true
      · rw [if_pos hb]
        refine (ih _ (by simp)).2.2 ⟨x, ?_, hxb⟩
        rcases List.mem_cons.1 hx with rfl | hx
        · rw [hb] at hxb; cases hxb
        · exact hx
      · rw [if_neg hb]
        have := List.length_pos_of_ne_nil (hempty ms [])
        simp only [List.length_cons]
        omega

theorem splitOn_nosep (sep : Char) (s : Str) : ∀ x ∈ splitOn sep s, sep ∉ x := by
  induction s with
  | nil => simp [splitOn]
  | cons c t ih =>
    rw [splitOn]
    split
    · intro x hx
      rcases List.mem_cons.1 hx with rfl | hx
      · simp
      · exact ih x hx
    · next hc =>
      cases hs : splitOn sep t with
      | nil => exact absurd hs (splitOn_ne_nil _ _)
      | cons y r =>
        rw [hs] at ih
        intro x hx
        rcases List.mem_cons.1 hx with rfl | hx
        · simp only [List.mem_cons, not_or]
          exact ⟨fun e => hc e.symm, ih y (by simp)⟩
        · exact ih x (by simp [hx])

theorem joinWith_append (sep : Char) (as bs : List Str) (ha : as ≠ []) (hb : bs ≠ []) :
    joinWith sep (as ++ bs) = joinWith sep as ++ sep :: joinWith sep bs := by
  induction as with
  | nil => exact absurd rfl ha
  | cons a as ih =>
    rw [List.cons_append, joinWith_cons sep a _ (by simp [hb])]
    by_cases h : as = []
    · subst h; rfl
    · rw [ih h, joinWith_cons sep a as h]; simp

/-- The fragments strictly between two commas. -/
theorem splits_iff (q : Char) (n x last : Str) (ms : List Str) (h : splitOn ',' n = x :: (ms ++ [last])) :
    Splits q n ↔ ∃ m ∈ ms, looseQuotes (otherQuote q) none m % 2 = 1 := by
  constructor
  · rintro ⟨a, m, b, rfl, hm, hodd⟩
    rw [splitOn_append, splitOn_append, splitOn_absent _ _ hm] at h
    refine ⟨m, ?_, hodd⟩
    cases ha : splitOn ',' a with
    | nil => exact absurd ha (splitOn_ne_nil _ _)
    | cons y ys =>
      rcases List.eq_nil_or_concat (splitOn ',' b) with hb | ⟨zs, z, hb⟩
      · exact absurd hb (splitOn_ne_nil _ _)
      · rw [ha, hb, List.concat_eq_append] at h
        simp only [List.cons_append, List.cons.injEq] at h
        have h2 := h.2
        rw [show ys ++ m :: ([] ++ (zs ++ [z])) = (ys ++ m :: zs) ++ [z] by simp] at h2
        have := (List.append_inj' h2 rfl).1
        rw [← this]
        simp
  · rintro ⟨m, hm, hodd⟩
    obtain ⟨as, bs, rfl⟩ := List.append_of_mem hm
    have hj := joinWith_splitOn ',' n
    rw [h] at hj
    refine ⟨joinWith ',' (x :: as), m, joinWith ',' (bs ++ [last]), ?_, splitOn_nosep ',' n m (by rw [h]; simp), hodd⟩
    rw [← joinWith_cons ',' m _ (by simp), ← joinWith_append ',' (x :: as) _ (by simp) (by simp), ← hj]
    simp

theorem splits_one (q : Char) (n : Str) (h : ',' ∉ n) : ¬ Splits q n := by
  rintro ⟨a, m, b, rfl, _⟩
  simp at h

/-- The names of a bracket with one quoted name: it, unless it is split. -/
theorem bracketChildNames_exactly (q : Char) (n : Str) (hq : q = '\'' ∨ q = '"') :
    bracketChildNames (q :: (escape q n ++ [q])) = [n] ↔ ¬ Splits q n := by
  obtain ⟨hb, hsp, hcm⟩ := quoteChar_facts hq
  have hfin : regroup [] (splitOn ',' (q :: (escape q n ++ [q]))) = [q :: (escape q n ++ [q])] →
      bracketChildNames (q :: (escape q n ++ [q])) = [n] := by
    intro h1
    unfold bracketChildNames
    rw [h1]
    simp only [List.map_cons, List.map_nil]
    rw [unquoteChild_quoted q _ hq, unescape_escape q hb]
  have hqo : (q = '\'' ∧ otherQuote q = '"') ∨ (q = '"' ∧ otherQuote q = '\'') := by
    rcases hq with rfl | rfl
    · exact .inl ⟨rfl, by decide⟩
    · exact .inr ⟨rfl, by decide⟩
  have hoq : otherQuote q ≠ q := by
    rcases hqo with ⟨rfl, h⟩ | ⟨rfl, h⟩ <;> rw [h] <;> decide
  have hob : otherQuote q ≠ '\\' := by
    rcases hqo with ⟨rfl, h⟩ | ⟨rfl, h⟩ <;> rw [h] <;> decide
  have hbal : ∀ m, (balanced (escape q m) '\'' && balanced (escape q m) '"') = true ↔
      ¬ looseQuotes (otherQuote q) none m % 2 = 1 := by
    intro m
    have h1 : balanced (escape q m) q = true := balancedGo_shielded q _ _ _ (shielded_escape q hb m none)
    have h2 : balanced (escape q m) (otherQuote q) = (true != decide (looseQuotes (otherQuote q) none m % 2 = 1)) :=
      balancedGo_escape q _ hoq hob m true none
    rcases hqo with ⟨e1, e2⟩ | ⟨e1, e2⟩
    · rw [e2] at h2 ⊢
      rw [e1] at h1 h2 ⊢
      rw [h1, h2]; simp
    · rw [e2] at h2 ⊢
      rw [e1] at h1 h2 ⊢
      rw [h1, h2]; simp
  cases hn : splitOn ',' n with
  | nil => exact absurd hn (splitOn_ne_nil _ _)
  | cons x rest =>
    rcases List.eq_nil_or_concat rest with rfl | ⟨ms, last, rfl⟩
    · -- no comma
      have hc : ',' ∉ n := by
        have := joinWith_splitOn ',' n
        rw [hn] at this
        rw [← this]
        exact splitOn_nosep ',' n x (by rw [hn]; simp)
      have hce : ',' ∉ q :: (escape q n ++ [q]) := by
        simp only [List.mem_cons, List.mem_append, List.not_mem_nil, or_false, not_or]
        refine ⟨fun h => hcm h.symm, ?_, fun h => hcm h.symm⟩
        intro hm
        rcases mem_escape hm with hm | hm
        · exact hc hm
        · cases hm
      refine ⟨fun _ => splits_one q n hc, fun _ => hfin ?_⟩
      rw [splitOn_absent _ _ hce, regroup]
      split
      · simp [regroup]
      · simp [regroup]
    · rw [List.concat_eq_append] at hn
      rw [splits_iff q n x last ms hn]
      have hes := splitOn_escape q hcm n
      rw [hn] at hes
      obtain ⟨ys, y, hy1, hy2⟩ := splitOn_snoc ',' q hcm (escape q n)
      have hy : ys = escape q x :: ms.map (escape q) ∧ y = escape q last := by
        rw [hes] at hy1
        have : escape q x :: (ms.map (escape q)) ++ [escape q last] = ys ++ [y] := by
          rw [← hy1]; simp
        have := List.append_inj' this rfl
        exact ⟨this.1.symm, by simpa using this.2.symm⟩
      obtain ⟨rfl, rfl⟩ := hy
      have hsplit : splitOn ',' (q :: (escape q n ++ [q])) =
          (q :: escape q x) :: (ms.map (escape q) ++ [escape q last ++ [q]]) := by
        rw [splitOn, if_neg hcm, hy2]; rfl
      have hub : (balanced (q :: escape q x) '\'' && balanced (q :: escape q x) '"') = false := by
        have hzs : ∀ b, balancedGo q b (some q) (escape q x) = b := fun b =>
          balancedGo_shielded q _ b _ (shielded_escape q hb x _)
        unfold balanced
        rcases hqo with ⟨rfl, _⟩ | ⟨rfl, _⟩
        · rw [balancedGo, if_pos ⟨rfl, by simp⟩, hzs]; rfl
        · rw [balancedGo.eq_2 '"', if_pos ⟨rfl, by simp⟩, hzs]; simp
      have hre : regroup [] (splitOn ',' (q :: (escape q n ++ [q]))) =
          regroup (q :: escape q x) (ms.map (escape q) ++ [escape q last ++ [q]]) := by
        rw [hsplit, regroup, hub]
        simp
      obtain ⟨r1, _, r3⟩ := regroup_run (escape q last ++ [q]) (by simp) (ms.map (escape q)) (q :: escape q x) (by simp)
      constructor
      · rintro h ⟨m, hm, hodd⟩
        have h2 := r3 ⟨escape q m, List.mem_map_of_mem hm, by
          rw [← Bool.not_eq_true, hbal m]; simpa using hodd⟩
        have := congrArg List.length h
        unfold bracketChildNames at this
        rw [hre, List.length_map] at this
        simp at this
        omega
      · intro h
        refine hfin ?_
        rw [hre, r1]
        · have hj := joinWith_splitOn ',' (q :: (escape q n ++ [q]))
          rw [hsplit, joinWith_cons ',' _ _ (by simp)] at hj
          rw [hj]
        · intro m hm
          obtain ⟨m', hm', rfl⟩ := List.mem_map.1 hm
          rw [hbal m']
          exact fun hodd => h ⟨m', hm', hodd⟩

/-! ### Paths -/

theorem segment_text_head {s : Segment} (hs : s.Written) : ∃ c t, s.text = c :: t ∧ c ∈ specialChars := by
  cases s with
  | dot n => exact ⟨'.', n, rfl, by decide⟩
  | quoted q n => exact ⟨'[', _, rfl, by decide⟩

theorem segments_head (segs : List Segment) (h : ∀ s ∈ segs, s.Written) :
    ∀ c t, segs.flatMap Segment.text = c :: t → c ∈ specialChars := by
  intro c t he
  cases segs with
  | nil => simp at he
  | cons s segs =>
    obtain ⟨c', t', h1, h2⟩ := segment_text_head (h s (by simp))
    rw [List.flatMap_cons, h1] at he
    simp only [List.cons_append, List.cons.injEq] at he
    rw [← he.1]; exact h2

/-- The keys that a step builds. -/
def builtNames : Segment → List Str
  | .dot n => [n]
  | .quoted q n => bracketChildNames (q :: (escape q n ++ [q]))

/-- What steps build. -/
def builtPath (segs : List Segment) : Node := segs.foldr (fun s sub => mapNode (builtNames s) sub) leafNode

theorem run_segments : ∀ (segs : List Segment), (∀ s ∈ segs, s.Written) → ∀ (fuel : Nat) (last : LexType),
    (segs.flatMap Segment.text).length < fuel →
    ∃ ls, lexRun fuel .subPath ⟨[], segs.flatMap Segment.text, last⟩ = .done ls ∧
      newPath ls = .ok (builtPath segs) := by
  intro segs
  induction segs with
  | nil =>
    intro _ fuel last hf
    obtain ⟨k, rfl⟩ : ∃ k, fuel = k + 1 := ⟨fuel - 1, by omega⟩
    exact ⟨[⟨.identity, []⟩, ⟨.eof, []⟩], rfl, rfl⟩
  | cons s segs ih =>
    intro h fuel last hf
    have hs := h s (by simp)
    have hrest : ∀ s ∈ segs, s.Written := fun x hx => h x (by simp [hx])
    obtain ⟨k, rfl⟩ : ∃ k, fuel = k + 1 := ⟨fuel - 1, by omega⟩
    cases s with
    | dot n =>
      rw [List.flatMap_cons] at hf ⊢
      simp only [Segment.text, List.cons_append, List.length_cons, List.length_append] at hf ⊢
      obtain ⟨⟨hne, hn⟩, hbs⟩ := hs
      obtain ⟨ls, h1, h2⟩ := ih hrest k .dotChild (by omega)
      have hstep : lexStep .subPath ⟨[], '.' :: (n ++ segs.flatMap Segment.text), last⟩ =
          some ⟨⟨[], segs.flatMap Segment.text, .dotChild⟩, [⟨.dotChild, '.' :: n⟩], some .subPath⟩ := by
        show some (handleChild ⟨['.'], n ++ segs.flatMap Segment.text, last⟩ .dotChild) = _
        unfold handleChild
        simp only [spanChild_append n _ hn (segments_head segs hrest), List.isEmpty_iff, hne, if_false]
        rfl
      refine ⟨_, lexRun_step hstep rfl h1, ?_⟩
      have hns := notStar hn
      have htp : trimPrefix ['.'] ('.' :: n) = n := trimPrefix_first n '.'
      simp only [List.cons_append, List.nil_append]
      rw [newPath]
      simp only [htp, hns.1, if_false, hns.2, h2]
      rw [unescape_plain n hbs, unescape_plain n hbs]
      rfl
    | quoted q n =>
      rw [List.flatMap_cons] at hf ⊢
      simp only [Segment.text] at hf ⊢
      have hq := hs
      have hlen : (segs.flatMap Segment.text).length < k := by
        simp only [bracketed, List.length_append, List.length_cons] at hf; omega
      obtain ⟨ls, h1, h2⟩ := ih hrest k .bracketChild hlen
      obtain ⟨h3, h4⟩ := handleBracket_complete ⟨[], bracketed q n ++ segs.flatMap Segment.text, last⟩ _ _
        (bracketSegment_bracketed q n hq) rfl
      have hstep : lexStep .subPath ⟨[], bracketed q n ++ segs.flatMap Segment.text, last⟩ =
          some ⟨⟨[], segs.flatMap Segment.text, .bracketChild⟩, [⟨.bracketChild, [] ++ bracketed q n⟩], some .subPath⟩ := by
        rw [← h4, lexStep]
        unfold lexSubPath
        split
        · next he => simp [bracketed] at he
        · next he => simp [bracketed] at he
        · next he => simp [bracketed] at he
        · rw [if_pos h3]
      refine ⟨_, lexRun_step hstep rfl h1, ?_⟩
      have hq2 := (quoteChar_facts hq).2.1
      have hbody : bracketBody (bracketed q n) = q :: (escape q n ++ [q]) := by
        have := bracketBody_eq q q (escape q n) hq2 hq2
        rw [← this]
        simp [bracketed]
      simp only [List.cons_append, List.nil_append]
      rw [newPath]
      simp only [hbody, h2]
      rfl

theorem mapNode_eq_iff (ns : List Str) (n : Str) (sub sub' : Node) :
    mapNode ns sub = mapNode [n] sub' ↔ ns = [n] ∧ sub = sub' := by
  constructor
  · intro h
    unfold mapNode at h
    have hc := congrArg Node.content h
    simp only [Node.content_mk] at hc
    match ns with
    | [] => simp at hc
    | [a] =>
      simp only [List.flatMap_cons, List.flatMap_nil, List.append_nil, List.cons.injEq, and_true] at hc
      have := congrArg (fun k => k.hd.value) hc.1
      simp only [keyNode, Node.hd_mk] at this
      exact ⟨by rw [this], hc.2⟩
    | a :: b :: r => simp at hc
  · rintro ⟨rfl, rfl⟩
    rfl

theorem builtPath_iff (segs : List Segment) : builtPath segs = nested (segs.map Segment.name) ↔
    ∀ s ∈ segs, builtNames s = [s.name] := by
  induction segs with
  | nil => exact ⟨fun _ => by simp, fun _ => rfl⟩
  | cons s segs ih =>
    have h1 : builtPath (s :: segs) = mapNode (builtNames s) (builtPath segs) := rfl
    have h2 : nested ((s :: segs).map Segment.name) = mapNode [s.name] (nested (segs.map Segment.name)) := rfl
    rw [h1, h2, mapNode_eq_iff, ih]
    simp

theorem builtPath_dots (ns : List Str) : builtPath (ns.map Segment.dot) = nested ns := by
  have := (builtPath_iff (ns.map Segment.dot)).2 (by
    intro s hs
    obtain ⟨n, _, rfl⟩ := List.mem_map.1 hs
    rfl)
  rw [this, List.map_map]
  congr 1
  exact List.map_id ns

theorem builtNames_iff {s : Segment} (h : s.Written) : builtNames s = [s.name] ↔ s.Ok := by
  cases s with
  | dot n => exact ⟨fun _ => ⟨h, trivial⟩, fun _ => rfl⟩
  | quoted q n =>
    rw [show builtNames (.quoted q n) = bracketChildNames (q :: (escape q n ++ [q])) from rfl,
      show Segment.name (.quoted q n) = n from rfl, bracketChildNames_exactly q n h]
    exact ⟨fun h' => ⟨h, h'⟩, fun h' => h'.2⟩

/-- Run of a path with a written root. -/
theorem buildPath_root (t : Str) (ls : List Lexeme)
    (h : lexRun (t.length + 2) .subPath ⟨[], t, .root⟩ = .done ls) :
    buildPath ('$' :: t) = newPath ls >>= fun sub => .ok (docNode sub) := by
  have hrun : lexRun (('$' :: t).length + 3) .path ⟨[], '$' :: t, .eof⟩ = .done ([] ++ ([⟨.root, ['$']⟩] ++ ls)) := by
    simp only [List.length_cons]
    rw [show t.length + 1 + 3 = (t.length + 2) + 1 + 1 by omega]
    exact lexRun_step (s := ⟨⟨[], '$' :: t, .eof⟩, [], some .root⟩) rfl rfl
      (lexRun_step (s := ⟨⟨[], t, .root⟩, [⟨.root, ['$']⟩], some .subPath⟩) rfl rfl h)
  unfold buildPath lexAll lexInit
  rw [hrun]
  rfl

/-- Run of a path without a root. -/
theorem buildPath_noroot (c : Char) (t : Str) (hc : c ≠ '$') (ls : List Lexeme)
    (h : lexRun (t.length + 3) .subPath ⟨[], c :: t, .eof⟩ = .done ls) :
    buildPath (c :: t) = newPath ls >>= fun sub => .ok (docNode sub) := by
  have hp : lexPath ⟨[], c :: t, .eof⟩ = ⟨⟨[], c :: t, .eof⟩, [⟨.root, ['$']⟩], some .subPath⟩ := by
    unfold lexPath
    split
    · rename_i h; simp at h
    · rename_i h; simp only [List.cons.injEq] at h; exact absurd h.1 hc
    · rfl
  have hrun : lexRun ((c :: t).length + 3) .path ⟨[], c :: t, .eof⟩ = .done ([⟨.root, ['$']⟩] ++ ls) := by
    simp only [List.length_cons]
    rw [show t.length + 1 + 3 = (t.length + 3) + 1 by omega]
    exact lexRun_step (by rw [lexStep, hp]) rfl h
  unfold buildPath lexAll lexInit
  rw [hrun]
  rfl

end Yot
