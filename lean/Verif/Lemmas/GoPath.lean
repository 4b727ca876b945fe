import Verif.Model.GoPath
import Verif.Spec.Paths
import Verif.Lemmas.Segments
/-
Lemmas about cleaned paths.
-/
namespace Yot
open Spec

theorem relPath_eq (cs : List Str) : relPath cs = joinWith '/' cs := by
  induction cs with
  | nil => rfl
  | cons c cs ih =>
    cases cs with
    | nil => rfl
    | cons d ds => rw [relPath, joinWith, ih]

theorem splitOn_no_sep (sep : Char) (s : Str) : ∀ x ∈ splitOn sep s, sep ∉ x := by
  induction s with
  | nil => simp [splitOn]
  | cons c t ih =>
    rw [splitOn]
    split
    · intro x hx
      rcases List.mem_cons.1 hx with rfl | hx
      · simp
      · exact ih x hx
    · rename_i hc
      cases hs : splitOn sep t with
      | nil => exact absurd hs (splitOn_ne_nil _ _)
      | cons y ys =>
        rw [hs] at ih
        intro x hx
        rcases List.mem_cons.1 hx with rfl | hx
        · rw [List.mem_cons, not_or]
          exact ⟨fun e => hc e.symm, ih y (by simp)⟩
        · exact ih x (by simp [hx])

theorem splitOn_joinWith (sep : Char) (cs : List Str) (hne : cs ≠ []) (h : ∀ c ∈ cs, sep ∉ c) :
    splitOn sep (joinWith sep cs) = cs := by
  induction cs with
  | nil => exact absurd rfl hne
  | cons c cs ih =>
    cases cs with
    | nil => exact splitOn_absent _ _ (h c (by simp))
    | cons d ds =>
      rw [joinWith, splitOn_append, splitOn_absent _ _ (h c (by simp)), ih (by simp) (fun x hx => h x (by simp [hx]))]
      rfl

/-- The stacks `path.Clean` produces (last element first). -/
def NormalStack (rooted : Bool) : List Str → Prop
  | [] => True
  | c :: st => (IsName c ∨ c = ['.', '.'] ∧ rooted = false ∧ ∀ d ∈ st, d = ['.', '.']) ∧ NormalStack rooted st

theorem normal_no_slash {rooted : Bool} {st : List Str} (h : NormalStack rooted st) : ∀ c ∈ st, '/' ∉ c ∧ c ≠ [] ∧ c ≠ ['.'] := by
  induction st with
  | nil => simp
  | cons c st ih =>
    intro d hd
    rcases List.mem_cons.1 hd with rfl | hd
    · rcases h.1 with h | ⟨h, _⟩
      · exact ⟨h.2.2.2, h.1, h.2.1⟩
      · rw [h]; decide
    · exact ih h.2 d hd

theorem normal_rooted {st : List Str} (h : NormalStack true st) : ∀ c ∈ st, IsName c := by
  induction st with
  | nil => simp
  | cons c st ih =>
    intro d hd
    rcases List.mem_cons.1 hd with rfl | hd
    · rcases h.1 with h | ⟨_, h, _⟩
      · exact h
      · cases h
    · exact ih h.2 d hd

theorem normal_of_names {rooted : Bool} {st : List Str} (h : ∀ c ∈ st, IsName c) : NormalStack rooted st := by
  induction st with
  | nil => trivial
  | cons c st ih => exact ⟨.inl (h c (by simp)), ih (fun d hd => h d (by simp [hd]))⟩

theorem cleanStep_normal (rooted : Bool) (st : List Str) (c : Str) (hs : '/' ∉ c) (h : NormalStack rooted st) :
    NormalStack rooted (cleanStep rooted st c) := by
  unfold cleanStep
  split
  · exact h
  · rename_i h1
    rw [not_or] at h1
    split
    · rename_i h2
      subst h2
      cases st with
      | nil =>
        cases rooted
        · exact ⟨.inr ⟨rfl, rfl, by simp⟩, trivial⟩
        · trivial
      | cons t r =>
        simp only
        split
        · rename_i ht
          refine ⟨.inr ⟨rfl, ?_, ?_⟩, h⟩
          · rcases h.1 with hn | ⟨_, hr, _⟩
            · exact absurd ht hn.2.2.1
            · exact hr
          · intro d hd
            rcases List.mem_cons.1 hd with rfl | hd
            · exact ht
            · rcases h.1 with hn | ⟨_, _, ha⟩
              · exact absurd ht hn.2.2.1
              · exact ha d hd
        · exact h.2
    · rename_i h2
      exact ⟨.inl ⟨h1.1, h1.2, h2, hs⟩, h⟩

theorem foldl_normal (rooted : Bool) (cs : List Str) : ∀ (st : List Str), (∀ c ∈ cs, '/' ∉ c) → NormalStack rooted st →
    NormalStack rooted (cs.foldl (cleanStep rooted) st) := by
  induction cs with
  | nil => intro st _ h; exact h
  | cons c cs ih =>
    intro st hs h
    exact ih _ (fun d hd => hs d (by simp [hd])) (cleanStep_normal rooted st c (hs c (by simp)) h)

theorem foldl_reverse_normal (rooted : Bool) (st : List Str) (h : NormalStack rooted st) :
    st.reverse.foldl (cleanStep rooted) [] = st := by
  induction st with
  | nil => rfl
  | cons c st ih =>
    rw [List.reverse_cons, List.foldl_append, ih h.2]
    simp only [List.foldl_cons, List.foldl_nil]
    unfold cleanStep
    rcases h.1 with hn | ⟨rfl, hr, ha⟩
    · rw [if_neg (by rw [not_or]; exact ⟨hn.1, hn.2.1⟩), if_neg hn.2.2.1]
    · rw [if_neg (by decide), if_pos rfl]
      cases st with
      | nil => simp [hr]
      | cons t r => simp [ha t (by simp)]

/-- Adding names to a stack. -/
theorem foldl_names (rooted : Bool) (cs : List Str) (h : ∀ c ∈ cs, IsName c) : ∀ st : List Str,
    cs.foldl (cleanStep rooted) st = cs.reverse ++ st := by
  induction cs with
  | nil => intro st; rfl
  | cons c cs ih =>
    intro st
    have hn := h c (by simp)
    rw [List.foldl_cons, ih (fun d hd => h d (by simp [hd]))]
    unfold cleanStep
    rw [if_neg (by rw [not_or]; exact ⟨hn.1, hn.2.1⟩), if_neg hn.2.2.1]
    simp

/-- The elements of a cleaned path, last first. -/
def stackOf (s : Str) : List Str := (splitOn '/' s).foldl (cleanStep (isAbs s)) []

theorem clean_eq (s : Str) : clean s = if isAbs s then '/' :: joinWith '/' (stackOf s).reverse
    else if (stackOf s).reverse = [] then ['.'] else joinWith '/' (stackOf s).reverse := rfl

theorem stackOf_normal (s : Str) : NormalStack (isAbs s) (stackOf s) :=
  foldl_normal _ _ _ (splitOn_no_sep '/' s) trivial

theorem joinWith_head (cs : List Str) (c : Str) (h : c ≠ []) : (joinWith '/' (c :: cs)).head? = c.head? := by
  cases cs with
  | nil => rfl
  | cons d ds =>
    rw [joinWith]
    cases c with
    | nil => exact absurd rfl h
    | cons x xs => rfl

theorem isAbs_joinWith {rooted : Bool} {st : List Str} (h : NormalStack rooted st) (hne : st ≠ []) :
    isAbs (joinWith '/' st.reverse) = false := by
  have hc := normal_no_slash h
  cases hr : st.reverse with
  | nil => simp at hr; exact absurd hr hne
  | cons c cs =>
    have hm : c ∈ st := by rw [← List.mem_reverse, hr]; simp
    obtain ⟨h1, h2, _⟩ := hc c hm
    unfold isAbs
    rw [joinWith_head cs c h2]
    cases c with
    | nil => exact absurd rfl h2
    | cons x xs =>
      simp only [List.head?_cons]
      simp only [List.mem_cons, not_or] at h1
      simp only [Option.some.injEq, decide_eq_false_iff_not]
      exact fun e => h1.1 e.symm

theorem isAbs_clean (s : Str) : isAbs (clean s) = isAbs s := by
  rw [clean_eq]
  split
  · rename_i h; rw [h]; rfl
  · rename_i h
    simp only [Bool.not_eq_true] at h
    rw [h]
    split
    · rfl
    · rename_i hne
      exact isAbs_joinWith (stackOf_normal s) (by simpa using hne)

theorem stackOf_clean (s : Str) : stackOf (clean s) = stackOf s := by
  have hn := stackOf_normal s
  have hns := normal_no_slash hn
  have key : ∀ rooted, NormalStack rooted (stackOf s) →
      (splitOn '/' (joinWith '/' (stackOf s).reverse)).foldl (cleanStep rooted) [] = stackOf s := by
    intro rooted hr
    by_cases h0 : stackOf s = []
    · rw [h0]; simp [joinWith, splitOn, cleanStep]
    · rw [splitOn_joinWith _ _ (by simpa using h0) (fun c hc => (hns c (by simpa using hc)).1)]
      exact foldl_reverse_normal _ _ hr
  have habs := isAbs_clean s
  unfold stackOf at *
  rw [habs]
  rw [show (clean s) = _ from clean_eq s]
  unfold stackOf
  split
  · rename_i h
    rw [splitOn, if_pos rfl, List.foldl_cons]
    rw [show cleanStep (isAbs s) [] [] = [] from by simp [cleanStep]]
    exact key _ hn
  · rename_i h
    split
    · rename_i h0
      simp only [List.reverse_eq_nil_iff] at h0
      rw [h0]; simp [splitOn, cleanStep]
    · exact key _ hn

/-- Cleaning a cleaned path changes nothing. -/
theorem clean_clean (s : Str) : clean (clean s) = clean s := by
  rw [clean_eq (clean s), stackOf_clean, isAbs_clean, ← clean_eq]

theorem names_noslash {cs : List Str} (h : ∀ c ∈ cs, IsName c) : ∀ c ∈ cs, '/' ∉ c := fun c hc => (h c hc).2.2.2

theorem splitOn_absPath (cs : List Str) (h : ∀ c ∈ cs, IsName c) :
    (splitOn '/' (absPath cs)).foldl (cleanStep true) [] = cs.reverse := by
  unfold absPath
  rw [splitOn, if_pos rfl, List.foldl_cons, show cleanStep true [] [] = [] from by simp [cleanStep], relPath_eq]
  by_cases h0 : cs = []
  · subst h0; simp [joinWith, splitOn, cleanStep]
  · rw [splitOn_joinWith _ _ h0 (names_noslash h), foldl_names _ _ h]; simp

theorem clean_absPath (cs : List Str) (h : ∀ c ∈ cs, IsName c) : clean (absPath cs) = absPath cs := by
  have ha : isAbs (absPath cs) = true := rfl
  rw [clean_eq, if_pos ha]
  unfold stackOf
  rw [ha, splitOn_absPath cs h, List.reverse_reverse, ← relPath_eq]; rfl

/-- Every cleaned absolute path is a list of names. -/
theorem clean_abs (s : Str) (h : isAbs s = true) : ∃ cs : List Str, (∀ c ∈ cs, IsName c) ∧ clean s = absPath cs := by
  have hn := stackOf_normal s
  rw [h] at hn
  refine ⟨(stackOf s).reverse, fun c hc => normal_rooted hn c (by simpa using hc), ?_⟩
  rw [clean_eq, if_pos h, ← relPath_eq]; rfl

/-- Names added below a cleaned directory. -/
theorem clean_under (d : Str) (hd : d ≠ []) (r : List Str) (hne : r ≠ []) (h : ∀ c ∈ r, IsName c) :
    clean (d ++ '/' :: relPath r) = under (clean d) (relPath r) := by
  have hab : isAbs (d ++ '/' :: relPath r) = isAbs d := by
    cases d with
    | nil => exact absurd rfl hd
    | cons x xs => rfl
  have hst : stackOf (d ++ '/' :: relPath r) = r.reverse ++ stackOf d := by
    unfold stackOf
    rw [hab, splitOn_append, List.foldl_append, relPath_eq, splitOn_joinWith _ _ hne (names_noslash h), foldl_names _ _ h]
  have hn := stackOf_normal d
  have hns := normal_no_slash hn
  have hjoin : ∀ (x : List Str), x ≠ [] → joinWith '/' (x ++ r) = joinWith '/' x ++ '/' :: joinWith '/' r := by
    intro x hx
    induction x with
    | nil => exact absurd rfl hx
    | cons a as ih =>
      cases as with
      | nil =>
        cases r with
        | nil => exact absurd rfl hne
        | cons b bs => rfl
      | cons b bs =>
        rw [List.cons_append, List.cons_append, joinWith, joinWith]
        have := ih (by simp)
        rw [List.cons_append] at this
        rw [this]; simp
  rw [clean_eq, hab, hst, clean_eq d, List.reverse_append, List.reverse_reverse]
  unfold under
  by_cases ha : isAbs d = true
  · rw [if_pos ha, if_pos ha, if_neg (by simp)]
    by_cases h0 : stackOf d = []
    · simp [h0, joinWith, relPath_eq]
    · have h0' : (stackOf d).reverse ≠ [] := by simpa using h0
      rw [hjoin _ h0', relPath_eq, if_neg]
      · rfl
      · intro e
        cases hr : (stackOf d).reverse with
        | nil => exact h0' hr
        | cons c cs =>
          rw [hr] at e
          have hc : c ≠ [] := (hns c (by rw [← List.mem_reverse, hr]; simp)).2.1
          have := joinWith_head cs c hc
          simp only [List.cons.injEq, true_and] at e
          rw [e] at this
          cases c with
          | nil => exact hc rfl
          | cons _ _ => cases this
  · rw [if_neg ha, if_neg ha]
    by_cases h0 : stackOf d = []
    · simp [h0, relPath_eq, hne]
    · have h0' : (stackOf d).reverse ≠ [] := by simpa using h0
      rw [if_neg (by simp [hne]), if_neg h0', hjoin _ h0', relPath_eq]
      cases hr : (stackOf d).reverse with
      | nil => exact absurd hr h0'
      | cons c cs =>
        have hcm := hns c (by rw [← List.mem_reverse, hr]; simp)
        rw [if_neg, if_neg]
        · intro e
          have h1 := isAbs_joinWith hn h0
          rw [hr, e] at h1
          cases h1
        · intro e
          cases cs with
          | nil => exact hcm.2.2 e
          | cons b bs =>
            rw [joinWith] at e
            cases c with
            | nil => exact hcm.2.1 rfl
            | cons x xs =>
              simp only [List.cons_append, List.cons.injEq] at e
              have := congrArg List.length e.2
              simp at this

theorem isAbs_of_mem {c : Str} (h : IsName c) : isAbs c = false := by
  obtain ⟨h1, _, _, h2⟩ := h
  cases c with
  | nil => exact absurd rfl h1
  | cons x xs =>
    simp only [List.mem_cons, not_or] at h2
    simp only [isAbs, List.head?_cons, Option.some.injEq, decide_eq_false_iff_not]
    exact fun e => h2.1 e.symm

theorem relPath_ne_nil {r : List Str} (hne : r ≠ []) (h : ∀ c ∈ r, IsName c) : relPath r ≠ [] := by
  cases r with
  | nil => exact absurd rfl hne
  | cons c cs =>
    intro e
    have := joinWith_head cs c (h c (by simp)).1
    rw [← relPath_eq, e] at this
    have hc := (h c (by simp)).1
    cases c with
    | nil => exact hc rfl
    | cons _ _ => cases this

/-- `path.Join` of a directory and a relative path of names. -/
theorem pathJoin_under (d : Str) (r : List Str) (hne : r ≠ []) (h : ∀ c ∈ r, IsName c) :
    pathJoin [d, relPath r] = under (clean d) (relPath r) := by
  have hr := relPath_ne_nil hne h
  by_cases hd : d = []
  · subst hd
    have hc : clean [] = ['.'] := by decide
    rw [hc]
    simp only [pathJoin, under, if_true]
    simp only [ne_eq, not_true_eq_false, decide_false, Bool.false_eq_true, not_false_eq_true, List.filter_cons_of_neg,
      hr, decide_true, List.filter_cons_of_pos, List.filter_nil, List.cons_ne_self, if_false, joinWith]
    have := clean_under ['.'] (by simp) r hne h
    have hc2 : clean ['.'] = ['.'] := by decide
    rw [hc2] at this
    simp only [under, if_true] at this
    rw [← this, clean_clean]
  · simp only [pathJoin]
    simp only [ne_eq, hd, not_false_eq_true, decide_true, List.filter_cons_of_pos, hr, List.filter_nil,
      List.cons_ne_self, if_false, joinWith, reduceCtorEq]
    exact clean_under d hd r hne h

theorem under_injective (d a b : Str) (h : under d a = under d b) : a = b := by
  unfold under at h
  split at h
  · exact h
  · split at h
    · simpa using h
    · simpa using h

theorem relPath_injective {r s : List Str} (hr : r ≠ []) (hs : s ≠ []) (h1 : ∀ c ∈ r, '/' ∉ c) (h2 : ∀ c ∈ s, '/' ∉ c)
    (h : relPath r = relPath s) : r = s := by
  rw [relPath_eq, relPath_eq] at h
  rw [← splitOn_joinWith '/' r hr h1, h, splitOn_joinWith '/' s hs h2]

/-- Cleaning the relative part first makes no difference below the root. -/
theorem foldl_clean_relative (R cs : List Str) (hcs : ∀ c ∈ cs, '/' ∉ c) :
    cs.foldl (cleanStep true) R = (cs.foldl (cleanStep false) []).reverse.foldl (cleanStep true) R := by
  have key : ∀ n (cs : List Str), cs.length = n → (∀ c ∈ cs, '/' ∉ c) →
      cs.foldl (cleanStep true) R = (cs.foldl (cleanStep false) []).reverse.foldl (cleanStep true) R := by
    intro n
    induction n with
    | zero =>
      intro cs h _
      rw [List.length_eq_zero_iff.1 h]; rfl
    | succ n ih =>
      intro cs h hs
      have hne : cs ≠ [] := by intro e; subst e; simp at h
      have hs' : ∀ c ∈ cs.dropLast, '/' ∉ c := fun c hc => hs c ((List.dropLast_sublist cs).subset hc)
      rw [← List.dropLast_append_getLast hne]
      generalize cs.getLast hne = c
      have ih := ih cs.dropLast (by simp [h]) hs'
      have hN := foldl_normal false cs.dropLast [] hs' trivial
      generalize cs.dropLast = ds at ih hN
      rw [List.foldl_append, List.foldl_append]
      simp only [List.foldl_cons, List.foldl_nil]
      rw [ih]
      generalize ds.foldl (cleanStep false) [] = S at hN
      by_cases h1 : c = [] ∨ c = ['.']
      · unfold cleanStep; simp only [h1, if_true]
      · by_cases h2 : c = ['.', '.']
        · subst h2
          cases S with
          | nil => rfl
          | cons t r =>
            by_cases ht : t = ['.', '.']
            · have : cleanStep false (t :: r) ['.', '.'] = ['.', '.'] :: t :: r := by simp [cleanStep, ht]
              rw [this, List.reverse_cons (a := ['.', '.']), List.foldl_append]; rfl
            · have h3 : cleanStep false (t :: r) ['.', '.'] = r := by simp [cleanStep, ht]
              rw [h3, List.reverse_cons, List.foldl_append]
              simp only [List.foldl_cons, List.foldl_nil]
              generalize r.reverse.foldl (cleanStep true) R = X
              have ht' := (normal_no_slash hN) t (by simp)
              have : cleanStep true X t = t :: X := by
                unfold cleanStep
                rw [if_neg (by rw [not_or]; exact ht'.2), if_neg ht]
              rw [this]; simp [cleanStep, ht]
        · have e : ∀ b Y, cleanStep b Y c = c :: Y := by intro b Y; unfold cleanStep; rw [if_neg h1, if_neg h2]
          rw [e, e, List.reverse_cons, List.foldl_append]
          simp only [List.foldl_cons, List.foldl_nil]
          rw [e]
  exact key _ cs rfl hcs

theorem locate_abs (cwd : List Str) (p : Str) : ∃ cs : List Str, (∀ c ∈ cs, IsName c) ∧ locate cwd p = absPath cs := by
  unfold locate
  split
  · rename_i h; exact clean_abs _ h
  · exact clean_abs _ rfl

/-- What lies under the cleaned directory `d` lies under the location of `d`. -/
theorem locate_under (cwd : List Str) (hw : ∀ c ∈ cwd, IsName c) (d : Str) (r : List Str) (hne : r ≠ [])
    (hr : ∀ c ∈ r, IsName c) : ∃ o : List Str, (∀ c ∈ o, IsName c) ∧ locate cwd d = absPath o ∧
      locate cwd (under (clean d) (relPath r)) = absPath (o ++ r) := by
  have absEq : ∀ s : Str, isAbs s = true → clean s = absPath (stackOf s).reverse := by
    intro s h; rw [clean_eq, if_pos h, ← relPath_eq]; rfl
  have names : ∀ s : Str, isAbs s = true → ∀ c ∈ (stackOf s).reverse, IsName c := by
    intro s h c hc
    have hn := stackOf_normal s
    rw [h] at hn
    exact normal_rooted hn c (by simpa using hc)
  have habs_app : ∀ x : Str, isAbs (absPath cwd ++ x) = true := fun _ => rfl
  by_cases ha : isAbs d = true
  · refine ⟨(stackOf d).reverse, names d ha, ?_, ?_⟩
    · unfold locate; rw [if_pos ha, absEq d ha]
    · have hd : d ≠ [] := by intro e; subst e; cases ha
      have hcu := clean_under d hd r hne hr
      have hab : isAbs (d ++ '/' :: relPath r) = true := by
        cases d with
        | nil => exact absurd rfl hd
        | cons x xs => exact ha
      have hst : stackOf (d ++ '/' :: relPath r) = r.reverse ++ stackOf d := by
        unfold stackOf
        rw [hab, ha, splitOn_append, List.foldl_append, relPath_eq, splitOn_joinWith _ _ hne (names_noslash hr), foldl_names _ _ hr]
      unfold locate
      rw [← hcu, isAbs_clean, if_pos hab, clean_clean, absEq _ hab, hst]
      simp
  · simp only [Bool.not_eq_true] at ha
    refine ⟨(stackOf (absPath cwd ++ '/' :: d)).reverse, names _ (habs_app _), ?_, ?_⟩
    · unfold locate; rw [if_neg (by rw [ha]; simp), absEq _ (habs_app _)]
    · -- the cleaned relative path
      have hrel : under (clean d) (relPath r) = relPath ((stackOf d).reverse ++ r) := by
        have := pathJoin_under d r hne hr
        by_cases hd : d = []
        · subst hd
          have h1 : clean [] = ['.'] := by decide
          rw [h1]; simp [under, stackOf, splitOn, cleanStep, isAbs]
        · have hcu := clean_under d hd r hne hr
          have hab : isAbs (d ++ '/' :: relPath r) = false := by
            cases d with
            | nil => exact absurd rfl hd
            | cons x xs => exact ha
          have hst : stackOf (d ++ '/' :: relPath r) = r.reverse ++ stackOf d := by
            unfold stackOf
            rw [hab, ha, splitOn_append, List.foldl_append, relPath_eq, splitOn_joinWith _ _ hne (names_noslash hr), foldl_names _ _ hr]
          rw [← hcu, clean_eq, hab, hst]
          simp [hne, relPath_eq]
      have hN := stackOf_normal d
      rw [ha] at hN
      have hNs := normal_no_slash hN
      have hNr : NormalStack false (r.reverse ++ stackOf d) := by
        have : ∀ l : List Str, (∀ c ∈ l, IsName c) → NormalStack false (l ++ stackOf d) := by
          intro l
          induction l with
          | nil => intro _; exact hN
          | cons a l ih => intro h; exact ⟨.inl (h a (by simp)), ih (fun c hc => h c (by simp [hc]))⟩
        exact this _ (fun c hc => hr c (by simpa using hc))
      have hnabs : isAbs (relPath ((stackOf d).reverse ++ r)) = false := by
        have := isAbs_joinWith hNr (by simp [hne])
        rw [List.reverse_append, List.reverse_reverse] at this
        rw [relPath_eq]; exact this
      unfold locate
      rw [hrel, if_neg (by rw [hnabs]; simp), absEq _ (habs_app _)]
      congr 1
      unfold stackOf
      rw [habs_app, habs_app, splitOn_append, splitOn_append, List.foldl_append, List.foldl_append, splitOn_absPath cwd hw,
        relPath_eq, splitOn_joinWith _ _ (by simp [hne]) (by
          intro c hc
          rcases List.mem_append.1 hc with h | h
          · exact (hNs c (by simpa [stackOf] using h)).1
          · exact (hr c h).2.2.2),
        List.foldl_append, foldl_names _ _ hr, List.reverse_append, List.reverse_reverse]
      congr 2
      rw [foldl_clean_relative cwd.reverse (splitOn '/' d) (splitOn_no_sep '/' d), ha]

end Yot
