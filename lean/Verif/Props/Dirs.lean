import Verif.Spec.Dirs
import Verif.Props.Paths
import Verif.Props.Files
/-
C36: directory entries.
-/
namespace Yot
open Spec

/-! ### YAML file names -/

theorem extOf_suffix (s : Str) (x : Str) (hx : '/' ∉ x) (hd : '.' ∉ x) : extOf s = '.' :: x ↔ ('.' :: x) <:+ s := by
  constructor
  · intro h
    unfold extOf at h
    simp only at h
    split at h
    · cases h
    · rename_i hl
      simp only [List.cons.injEq, true_and] at h
      have hp1 := List.takeWhile_prefix (p := fun c => decide (c ≠ '/')) (l := s.reverse)
      generalize he : s.reverse.takeWhile (fun c => decide (c ≠ '/')) = e at *
      have hsplit := List.takeWhile_append_dropWhile (p := (fun c => decide (c ≠ '.'))) (l := e)
      generalize ht : e.takeWhile (fun c => decide (c ≠ '.')) = t at *
      cases hdw : e.dropWhile (fun c => decide (c ≠ '.')) with
      | nil =>
        rw [hdw, List.append_nil] at hsplit
        exact absurd (by rw [hsplit]) hl
      | cons y ys =>
        have hy : y = '.' := by
          have := List.head?_dropWhile_not (fun c => decide (c ≠ '.')) e
          rw [hdw] at this
          simpa using this
        subst hy
        rw [hdw] at hsplit
        have hpre : t ++ ['.'] <+: s.reverse :=
          List.IsPrefix.trans ⟨ys, by rw [← hsplit]; simp⟩ hp1
        have := List.reverse_suffix.2 hpre
        rw [List.reverse_reverse] at this
        simpa [h] using this
  · rintro ⟨a, rfl⟩
    unfold extOf
    simp only [List.reverse_append, List.reverse_cons, List.append_assoc]
    have h1 : (x.reverse ++ (['.'] ++ a.reverse)).takeWhile (fun c => decide (c ≠ '/')) =
        x.reverse ++ ('.' :: a.reverse.takeWhile (fun c => decide (c ≠ '/'))) := by
      rw [List.takeWhile_append_of_pos]
      · simp
      · intro c hc
        have : c ∈ x := by simpa using hc
        simp only [ne_eq, decide_not, Bool.not_eq_eq_eq_not, Bool.not_true, decide_eq_false_iff_not]
        intro e; subst e; exact hx this
    rw [h1]
    have h2 : ∀ r : Str, (x.reverse ++ '.' :: r).takeWhile (fun c => decide (c ≠ '.')) = x.reverse := by
      intro r
      rw [List.takeWhile_append_of_pos]
      · simp
      · intro c hc
        have : c ∈ x := by simpa using hc
        simp only [ne_eq, decide_not, Bool.not_eq_eq_eq_not, Bool.not_true, decide_eq_false_iff_not]
        intro e; subst e; exact hd this
    rw [h2, if_neg (by simp), List.reverse_reverse]

theorem isYamlName_iff (p : Str) : isYamlName p = true ↔ YamlName p := by
  unfold isYamlName YamlName
  rw [Bool.or_eq_true, decide_eq_true_eq, decide_eq_true_eq,
    extOf_suffix p c!"yaml" (by decide) (by decide), extOf_suffix p c!"yml" (by decide) (by decide)]

/-! ### The files below a directory -/

mutual
theorem walkFs_iff (p : Str) : ∀ (n : FsNode) (f : Str), f ∈ walkFs p n ↔
    ∃ cs m, Reaches n cs m ∧ NotDir m ∧ f = cs.foldl (fun p c => pathJoin [p, c]) p ∧ YamlName f
  | .file, f => by
    rw [walkFs]
    constructor
    · intro h
      split at h
      · rename_i hy
        simp only [List.mem_singleton] at h
        subst h
        exact ⟨[], _, .here _, trivial, rfl, (isYamlName_iff _).1 hy⟩
      · cases h
    · rintro ⟨cs, m, hr, _, he, hy⟩
      cases hr
      simp only [List.foldl_nil] at he
      subst he
      rw [if_pos ((isYamlName_iff _).2 hy)]; simp
  | .link _, f => by
    rw [walkFs]
    constructor
    · intro h
      split at h
      · rename_i hy
        simp only [List.mem_singleton] at h
        subst h
        exact ⟨[], _, .here _, trivial, rfl, (isYamlName_iff _).1 hy⟩
      · cases h
    · rintro ⟨cs, m, hr, _, he, hy⟩
      cases hr
      simp only [List.foldl_nil] at he
      subst he
      rw [if_pos ((isYamlName_iff _).2 hy)]; simp
  | .dir es, f => by
    rw [walkFs, walkEntries_iff p es f]
    constructor
    · rintro ⟨e, he, cs, m, hr, hf, h1, h2⟩
      exact ⟨e.1 :: cs, m, .step he hr, hf, h1, h2⟩
    · rintro ⟨cs, m, hr, hf, h1, h2⟩
      cases hr with
      | here => exact absurd hf id
      | step he hr => exact ⟨_, he, _, m, hr, hf, h1, h2⟩
theorem walkEntries_iff (p : Str) : ∀ (es : List (Str × FsNode)) (f : Str), f ∈ walkEntries p es ↔
    ∃ e ∈ es, ∃ cs m, Reaches e.2 cs m ∧ NotDir m ∧
      f = cs.foldl (fun p c => pathJoin [p, c]) (pathJoin [p, e.1]) ∧ YamlName f
  | [], f => by simp [walkEntries]
  | e :: es, f => by
    rw [walkEntries, List.mem_append, walkFs_iff _ e.2 f, walkEntries_iff p es f]
    simp only [List.mem_cons, exists_eq_or_imp]
end

/-- **C36**: the files listed for a directory are those below it, at any depth, with
the extension `.yaml` or `.yml`. -/
theorem C36_files (fs : Fs) (p f : Str) : f ∈ getFileNames fs p ↔
    ∃ n cs m, fs p = some n ∧ Reaches n cs m ∧ NotDir m ∧
      f = cs.foldl (fun p c => pathJoin [p, c]) p ∧ YamlName f := by
  unfold getFileNames
  split
  · rename_i h
    constructor
    · intro h; cases h
    · rintro ⟨n, _, _, hn, _⟩; rw [h] at hn; cases hn
  · rename_i n h
    rw [walkFs_iff]
    constructor
    · rintro ⟨cs, m, h1⟩; exact ⟨n, cs, m, h, h1⟩
    · rintro ⟨n', cs, m, hn, h1⟩
      rw [h] at hn
      cases hn
      exact ⟨cs, m, h1⟩

theorem pathJoin_name (ps : List Str) (c : Str) (hp : ∀ c ∈ ps, IsName c) (hc : IsName c) :
    pathJoin [absPath ps, c] = absPath (ps ++ [c]) := by
  have := pathJoin_under (absPath ps) [c] (by simp) (by intro d hd; rw [List.mem_singleton.1 hd]; exact hc)
  rw [show relPath [c] = c from rfl, clean_absPath ps hp] at this
  rw [this, absPath_concat]
  unfold under
  rw [if_neg (by unfold absPath; simp)]
  by_cases h0 : ps = []
  · subst h0; rfl
  · rw [if_neg h0, if_neg]
    unfold absPath
    simp only [List.cons.injEq, true_and]
    exact relPath_ne_nil h0 hp

theorem foldl_names_path (cs : List Str) : ∀ (ps : List Str), (∀ c ∈ ps, IsName c) → (∀ c ∈ cs, IsName c) →
    cs.foldl (fun p c => pathJoin [p, c]) (absPath ps) = absPath (ps ++ cs) := by
  induction cs with
  | nil => intro ps _ _; simp
  | cons c cs ih =>
    intro ps hp hc
    rw [List.foldl_cons, pathJoin_name ps c hp (hc c (by simp)), ih]
    · simp
    · intro d hd
      rcases List.mem_append.1 hd with h | h
      · exact hp d h
      · rw [List.mem_singleton.1 h]; exact hc c (by simp)
    · exact fun d hd => hc d (by simp [hd])

theorem Spec.Reaches.names {n m : FsNode} {cs : List Str} (h : Reaches n cs m) (hw : WellNamed n) : ∀ c ∈ cs, IsName c := by
  induction h with
  | here => simp
  | step he hr ih =>
    cases hw with
    | dir es h1 h2 h3 =>
      intro d hd
      rcases List.mem_cons.1 hd with rfl | hd
      · exact h1 _ he
      · exact ih (h3 _ he) d hd

/-- **C36**: for a directory given by its absolute path, these are exactly the paths
of the files below it. -/
theorem C36_files_absolute (fs : Fs) (ps : List Str) (hp : ∀ c ∈ ps, IsName c) (n : FsNode)
    (hn : fs (absPath ps) = some n) (hw : WellNamed n) (f : Str) : f ∈ getFileNames fs (absPath ps) ↔
    ∃ cs m, Reaches n cs m ∧ NotDir m ∧ f = absPath (ps ++ cs) ∧ YamlName f := by
  rw [C36_files]
  constructor
  · rintro ⟨n', cs, m, h0, h1, h2, h3, h4⟩
    rw [hn] at h0
    cases h0
    exact ⟨cs, m, h1, h2, by rw [h3, foldl_names_path _ _ hp (h1.names hw)], h4⟩
  · rintro ⟨cs, m, h1, h2, h3, h4⟩
    exact ⟨n, cs, m, hn, h1, h2, by rw [h3, foldl_names_path _ _ hp (h1.names hw)], h4⟩

mutual
theorem walkFs_nodup : ∀ (n : FsNode) (ps : List Str), (∀ c ∈ ps, IsName c) → WellNamed n → (walkFs (absPath ps) n).Nodup
  | .file, ps, _, _ => by rw [walkFs]; split <;> simp
  | .link _, ps, _, _ => by rw [walkFs]; split <;> simp
  | .dir es, ps, hp, hw => by
    rw [walkFs]
    cases hw with
    | dir _ h1 h2 h3 => exact walkEntries_nodup es ps hp h1 h2 h3
theorem walkEntries_nodup : ∀ (es : List (Str × FsNode)) (ps : List Str), (∀ c ∈ ps, IsName c) →
    (∀ e ∈ es, IsName e.1) → (es.map Prod.fst).Nodup → (∀ e ∈ es, WellNamed e.2) → (walkEntries (absPath ps) es).Nodup
  | [], _, _, _, _, _ => by simp [walkEntries]
  | e :: es, ps, hp, h1, h2, h3 => by
    have he := h1 e (by simp)
    have hpe : ∀ c ∈ ps ++ [e.1], IsName c := by
      intro c hc
      rcases List.mem_append.1 hc with h | h
      · exact hp c h
      · rw [List.mem_singleton.1 h]; exact he
    rw [List.map_cons, List.nodup_cons] at h2
    rw [walkEntries, List.nodup_append, pathJoin_name ps e.1 hp he]
    refine ⟨walkFs_nodup e.2 _ hpe (h3 e (by simp)),
      walkEntries_nodup es ps hp (fun x hx => h1 x (by simp [hx])) h2.2 (fun x hx => h3 x (by simp [hx])), ?_⟩
    intro a ha b hb hab
    subst hab
    obtain ⟨cs, m, r1, _, r2, _⟩ := (walkFs_iff _ e.2 a).1 ha
    obtain ⟨e', he', cs', m', r1', _, r2', _⟩ := (walkEntries_iff _ es a).1 hb
    have hn' := h1 e' (by simp [he'])
    have hpe' : ∀ c ∈ ps ++ [e'.1], IsName c := by
      intro c hc
      rcases List.mem_append.1 hc with h | h
      · exact hp c h
      · rw [List.mem_singleton.1 h]; exact hn'
    rw [foldl_names_path _ _ hpe (r1.names (h3 e (by simp)))] at r2
    rw [pathJoin_name ps e'.1 hp hn', foldl_names_path _ _ hpe' (r1'.names (h3 e' (by simp [he'])))] at r2'
    have hall : ∀ (x : Str × FsNode) (l : List Str), (∀ c ∈ ps ++ [x.1], IsName c) → (∀ c ∈ l, IsName c) →
        ∀ c ∈ ps ++ [x.1] ++ l, IsName c := by
      intro x l hx hl c hc
      rcases List.mem_append.1 hc with h | h
      · exact hx c h
      · exact hl c h
    have := absPath_injective (hall e cs hpe (r1.names (h3 e (by simp))))
      (hall e' cs' hpe' (r1'.names (h3 e' (by simp [he'])))) (by rw [← r2, r2'])
    simp only [List.append_assoc, List.append_cancel_left_eq, List.cons_append, List.nil_append, List.cons.injEq] at this
    exact h2.1 (by rw [this.1]; exact List.mem_map_of_mem he')
end

/-- **C36**: each of them is listed once. -/
theorem C36_files_once (fs : Fs) (ps : List Str) (hp : ∀ c ∈ ps, IsName c) (n : FsNode)
    (hn : fs (absPath ps) = some n) (hw : WellNamed n) : (getFileNames fs (absPath ps)).Nodup := by
  unfold getFileNames
  rw [hn]
  exact walkFs_nodup n ps hp hw

/-! ### The expansion -/

theorem reaches_lookup (fs : Fs) (hc : Consistent fs) {n m : FsNode} {cs : List Str} (h : Reaches n cs m) :
    ∀ p, fs p = some n → fs (cs.foldl (fun p c => pathJoin [p, c]) p) = some m := by
  induction h with
  | here => intro p hp; exact hp
  | step he hr ih =>
    intro p hp
    rw [List.foldl_cons]
    exact ih _ (hc p _ _ _ hp he)

theorem pathJoin_clean (es : List Str) : pathJoin es = [] ∨ clean (pathJoin es) = pathJoin es := by
  unfold pathJoin
  simp only
  split
  · exact .inl rfl
  · exact .inr (clean_clean _)

theorem isAbs_pathJoin (d p : Str) (h : isAbs d = true) : isAbs (pathJoin [d, p]) = true := by
  have hd : d ≠ [] := by intro e; subst e; cases h
  unfold pathJoin
  simp only [ne_eq, hd, not_false_eq_true, decide_true, List.filter_cons_of_pos, reduceCtorEq, if_false]
  rw [isAbs_clean]
  unfold isAbs at h ⊢
  rw [joinWith_head _ d hd]
  exact h

theorem resolvePath_stable (dir : Str) (hd : DirKnown dir) (p : Str) (hp : isAbs p = true ∨ dir = [] ∧ (p = [] ∨ clean p = p)) :
    resolvePath dir p = p := by
  unfold resolvePath
  rcases hp with h | ⟨rfl, h⟩
  · rw [if_pos h]
  · split
    · rfl
    · rcases h with rfl | h
      · decide
      · by_cases h0 : p = []
        · subst h0; decide
        · simp [pathJoin, h0, joinWith, h]

theorem walked_resolved (fs : Fs) (dir : Str) (hd : DirKnown dir) (p f : Str)
    (h : f ∈ getFileNames fs (resolvePath dir p)) : resolvePath dir f = f := by
  obtain ⟨_, cs, _, _, _, _, rfl, _⟩ := (C36_files _ _ _).1 h
  apply resolvePath_stable dir hd
  have key : ∀ (cs : List Str) (q : Str), (isAbs q = true ∨ dir = [] ∧ (q = [] ∨ clean q = q)) →
      (isAbs (cs.foldl (fun p c => pathJoin [p, c]) q) = true ∨ dir = [] ∧
        (cs.foldl (fun p c => pathJoin [p, c]) q = [] ∨
        clean (cs.foldl (fun p c => pathJoin [p, c]) q) = cs.foldl (fun p c => pathJoin [p, c]) q)) := by
    intro cs
    induction cs with
    | nil => intro q h; exact h
    | cons c cs ih =>
      intro q h
      rw [List.foldl_cons]
      apply ih
      rcases h with h | ⟨h0, _⟩
      · exact .inl (isAbs_pathJoin q c h)
      · exact .inr ⟨h0, pathJoin_clean _⟩
  apply key
  unfold resolvePath
  split
  · rename_i h; exact .inl h
  · rcases hd with rfl | h
    · exact .inr ⟨rfl, pathJoin_clean _⟩
    · exact .inl (isAbs_pathJoin _ _ h)

theorem expandLoop_plain {O D : Type} (fs : Fs) (dir : Str) (B : List (Entry O D)) : ∀ (fuel : Nat) (done : List (Entry O D)),
    (∀ b ∈ B, b.path ≠ ['-'] ∧ isDirectory fs b.path = some false ∧ resolvePath dir b.path = b.path) →
    B.length ≤ fuel → expandLoop fs dir fuel done B = .done (done ++ B) := by
  induction B with
  | nil => intro fuel done _ _; cases fuel <;> simp [expandLoop]
  | cons b B ih =>
    intro fuel done h hf
    cases fuel with
    | zero => simp at hf
    | succ fuel =>
      obtain ⟨h1, h2, h3⟩ := h b (by simp)
      simp only [expandLoop]
      rw [if_neg h1, h3, h2]
      simp only
      rw [ih fuel _ (fun x hx => h x (by simp [hx])) (by simpa using hf)]
      simp

theorem expandLoop_more {O D : Type} (fs : Fs) (dir : Str) : ∀ (fuel : Nat) (done ys : List (Entry O D)),
    expandLoop fs dir fuel done ys = .running ∨ expandLoop fs dir (fuel + 1) done ys = expandLoop fs dir fuel done ys := by
  intro fuel
  induction fuel with
  | zero =>
    intro done ys
    cases ys with
    | nil => right; simp [expandLoop]
    | cons y ys => left; simp [expandLoop]
  | succ n ih =>
    intro done ys
    cases ys with
    | nil => right; simp [expandLoop]
    | cons y ys =>
      rw [expandLoop, expandLoop]
      by_cases h : y.path = ['-']
      · simp only [if_pos h]; exact ih _ _
      · simp only [if_neg h]
        cases isDirectory fs (resolvePath dir y.path) with
        | none => right; rfl
        | some b =>
          cases b with
          | false => exact ih _ _
          | true =>
            simp only
            split
            · right; rfl
            · exact ih _ _

theorem running_less {O D : Type} (fs : Fs) (dir : Str) (done ys : List (Entry O D)) (k : Nat) : ∀ fuel,
    expandLoop fs dir (fuel + k) done ys = .running → expandLoop fs dir fuel done ys = .running := by
  induction k with
  | zero => intro fuel h; exact h
  | succ k ih =>
    intro fuel h
    apply ih
    rcases expandLoop_more fs dir (fuel + k) done ys with h' | h'
    · exact h'
    · rw [← h']; exact h

theorem walked_linked (fs : Fs) (hc : Consistent fs) (p f : Str) (h : f ∈ getFileNames fs p) :
    f ≠ ['-'] ∧ (isDirectory fs f = some true → getFileNames fs f = [f]) := by
  obtain ⟨n, cs, m, h1, h2, h3, h4, h5⟩ := (C36_files _ _ _).1 h
  have hf := reaches_lookup fs hc h2 p h1
  rw [← h4] at hf
  constructor
  · rintro rfl
    rcases h5 with ⟨t, ht⟩ | ⟨t, ht⟩
    all_goals
      have := congrArg List.length ht
      simp at this
  · intro hd
    unfold isDirectory at hd
    rw [hf] at hd
    have hm : m = .link (some true) := by
      cases m with
      | file => cases hd
      | link b => simp only at hd; rw [hd]
      | dir es => exact absurd h3 id
    have hself : f ∈ getFileNames fs f := (C36_files _ _ _).2 ⟨m, [], m, hf, .here m, h3, rfl, h5⟩
    unfold getFileNames at hself ⊢
    rw [hf, hm] at hself ⊢
    simp only [walkFs] at hself ⊢
    split at hself
    · rename_i hy; rw [if_pos hy]
    · cases hself

/-- An entry made for a file of a directory. -/
structure FromDir {O D : Type} (fs : Fs) (dir : Str) (b : Entry O D) : Prop where
  stdin : b.path ≠ ['-']
  resolved : resolvePath dir b.path = b.path
  ext : extOf b.outputPath = []
  self : isDirectory fs b.path = some true → getFileNames fs b.path = [b.path]

theorem FromDir.again {O D : Type} {fs : Fs} {dir : Str} {b : Entry O D} (h : FromDir fs dir b) : FromDir fs dir (b.forFile b.path) :=
  ⟨h.stdin, h.resolved, h.ext, h.self⟩

theorem expandLoop_dangling {O D : Type} (fs : Fs) (dir : Str) (B : List (Entry O D)) : ∀ (C done : List (Entry O D)) (b : Entry O D),
    (∀ x ∈ B, FromDir fs dir x) → FromDir fs dir b → isDirectory fs b.path = none →
    ∀ fuel, B.length < fuel → expandLoop fs dir fuel done (B ++ b :: C) = .err := by
  induction B with
  | nil =>
    intro C done b _ hb hn fuel hf
    obtain ⟨fuel, rfl⟩ : ∃ k, fuel = k + 1 := ⟨fuel - 1, by simp at hf; omega⟩
    simp [expandLoop, hb.stdin, hb.resolved, hn]
  | cons x B ih =>
    intro C done b hB hb hn fuel hf
    obtain ⟨fuel, rfl⟩ : ∃ k, fuel = k + 1 := ⟨fuel - 1, by simp at hf; omega⟩
    have hx := hB x (by simp)
    rw [List.cons_append, expandLoop, if_neg hx.stdin, hx.resolved]
    have hf : B.length < fuel := by simp at hf; omega
    cases hk : isDirectory fs x.path with
    | none => simp [hk]
    | some v =>
      simp only [hk]
      cases v with
      | false => exact ih C _ b (fun y hy => hB y (by simp [hy])) hb hn fuel hf
      | true =>
        simp only [hx.ext, ne_eq, not_true_eq_false, if_false]
        rw [List.append_assoc, List.cons_append]
        exact ih _ _ b (fun y hy => hB y (by simp [hy])) hb hn fuel hf

theorem expandLoop_forever {O D : Type} (fs : Fs) (dir : Str) : ∀ (fuel : Nat) (done B : List (Entry O D)),
    (∀ x ∈ B, FromDir fs dir x ∧ isDirectory fs x.path ≠ none) → (∃ x ∈ B, isDirectory fs x.path = some true) →
    expandLoop fs dir fuel done B = .running := by
  intro fuel
  induction fuel with
  | zero =>
    intro done B _ ⟨x, hx, _⟩
    cases B with
    | nil => cases hx
    | cons b B => simp [expandLoop]
  | succ n ih =>
    intro done B hB ⟨x, hx, hd⟩
    cases B with
    | nil => cases hx
    | cons b B =>
      obtain ⟨hb, hne⟩ := hB b (by simp)
      rw [expandLoop, if_neg hb.stdin, hb.resolved]
      cases hk : isDirectory fs b.path with
      | none => exact absurd hk hne
      | some v =>
        simp only [hk]
        cases v with
        | false =>
          apply ih _ _ (fun y hy => hB y (by simp [hy]))
          rcases List.mem_cons.1 hx with rfl | hx
          · rw [hk] at hd; cases hd
          · exact ⟨x, hx, hd⟩
        | true =>
          simp only [hb.ext, ne_eq, not_true_eq_false, if_false]
          rw [hb.self hk]
          apply ih
          · intro y hy
            rcases List.mem_append.1 hy with hy | hy
            · exact hB y (by simp [hy])
            · simp only [List.map_cons, List.map_nil, List.mem_singleton] at hy
              subst hy
              exact ⟨hb.again, hne⟩
          · exact ⟨b.forFile b.path, by simp, hk⟩

/-- The first pass: over the entries as given. -/
theorem expandLoop_first {O D : Type} (fs : Fs) (dir : Str) (ys : List (Entry O D)) : ∀ (done B : List (Entry O D)),
    ((∀ y ∈ ys, Acceptable fs dir y) → ∀ fuel, expandLoop fs dir (fuel + ys.length) done (ys ++ B) =
      expandLoop fs dir fuel (done ++ (ys.filter (fun y => ¬ IsDirEntry fs dir y)).map (located dir))
        (B ++ (ys.filter (fun y => IsDirEntry fs dir y)).flatMap
            (fun y => (getFileNames fs (resolvePath dir y.path)).map y.forFile))) ∧
    ((∃ y ∈ ys, ¬ Acceptable fs dir y) → ∀ fuel, ys.length ≤ fuel → expandLoop fs dir fuel done (ys ++ B) = .err) := by
  induction ys with
  | nil =>
    intro done B
    refine ⟨fun _ fuel => by simp, ?_⟩
    rintro ⟨y, hy, _⟩; cases hy
  | cons y ys ih =>
    intro done B
    by_cases hp : y.path = ['-']
    · obtain ⟨h1, h2⟩ := ih (done ++ [y]) B
      have hnd : ¬ IsDirEntry fs dir y := fun h => h.1 hp
      have hacc : Acceptable fs dir y := .inl hp
      refine ⟨fun ha fuel => ?_, ?_⟩
      · rw [List.length_cons, ← Nat.add_assoc, List.cons_append, expandLoop, if_pos hp, h1 (fun x hx => ha x (by simp [hx])),
          List.filter_cons_of_pos (by simpa using hnd), List.filter_cons_of_neg (by simpa using hnd)]
        simp [located, hp]
      · rintro ⟨x, hx, hna⟩ fuel hf
        obtain ⟨fuel, rfl⟩ : ∃ k, fuel = k + 1 := ⟨fuel - 1, by simp at hf; omega⟩
        rcases List.mem_cons.1 hx with rfl | hx
        · exact absurd hacc hna
        · rw [List.cons_append, expandLoop, if_pos hp]
          exact h2 ⟨x, hx, hna⟩ fuel (by simpa using hf)
    · cases hk : isDirectory fs (resolvePath dir y.path) with
      | none =>
        have hna : ¬ Acceptable fs dir y := by
          rintro (h | h | ⟨h, _⟩)
          · exact absurd h hp
          · rw [hk] at h; cases h
          · rw [hk] at h; cases h
        refine ⟨fun ha => absurd (ha y (by simp)) hna, fun _ fuel hf => ?_⟩
        obtain ⟨fuel, rfl⟩ : ∃ k, fuel = k + 1 := ⟨fuel - 1, by simp at hf; omega⟩
        simp [expandLoop, hp, hk]
      | some b =>
        cases b with
        | false =>
          obtain ⟨h1, h2⟩ := ih (done ++ [{ y with path := resolvePath dir y.path }]) B
          have hnd : ¬ IsDirEntry fs dir y := fun h => by have := h.2; rw [hk] at this; cases this
          have hacc : Acceptable fs dir y := .inr (.inl hk)
          refine ⟨fun ha fuel => ?_, ?_⟩
          · rw [List.length_cons, ← Nat.add_assoc, List.cons_append, expandLoop, if_neg hp]
            simp only [hk]
            rw [h1 (fun x hx => ha x (by simp [hx])),
              List.filter_cons_of_pos (by simpa using hnd), List.filter_cons_of_neg (by simpa using hnd)]
            simp [located, hp]
          · rintro ⟨x, hx, hna⟩ fuel hf
            obtain ⟨fuel, rfl⟩ : ∃ k, fuel = k + 1 := ⟨fuel - 1, by simp at hf; omega⟩
            rcases List.mem_cons.1 hx with rfl | hx
            · exact absurd hacc hna
            · rw [List.cons_append, expandLoop, if_neg hp]
              simp only [hk]
              exact h2 ⟨x, hx, hna⟩ fuel (by simpa using hf)
        | true =>
          by_cases hx : HasExt y.outputPath
          · have hne : extOf y.outputPath ≠ [] := by rw [ne_eq, extOf_iff]; simpa using hx
            have hna : ¬ Acceptable fs dir y := by
              rintro (h | h | ⟨_, h⟩)
              · exact absurd h hp
              · rw [hk] at h; cases h
              · exact h hx
            refine ⟨fun ha => absurd (ha y (by simp)) hna, fun _ fuel hf => ?_⟩
            obtain ⟨fuel, rfl⟩ : ∃ k, fuel = k + 1 := ⟨fuel - 1, by simp at hf; omega⟩
            simp [expandLoop, hp, hk, hne]
          · obtain ⟨h1, h2⟩ := ih done (B ++ (getFileNames fs (resolvePath dir y.path)).map y.forFile)
            have hne : extOf y.outputPath = [] := (extOf_iff _).2 hx
            have hdir : IsDirEntry fs dir y := ⟨hp, hk⟩
            have hacc : Acceptable fs dir y := .inr (.inr ⟨hk, hx⟩)
            have hstep : ∀ fuel, expandLoop fs dir (fuel + 1) done (y :: ys ++ B) =
                expandLoop fs dir fuel done (ys ++ (B ++ (getFileNames fs (resolvePath dir y.path)).map y.forFile)) := by
              intro fuel
              simp [expandLoop, hp, hk, hne]
            refine ⟨fun ha fuel => ?_, ?_⟩
            · rw [List.length_cons, ← Nat.add_assoc, hstep, h1 (fun x hx => ha x (by simp [hx])),
                List.filter_cons_of_neg (by simpa using hdir), List.filter_cons_of_pos (by simpa using hdir)]
              simp
            · rintro ⟨x, hx, hna⟩ fuel hf
              obtain ⟨fuel, rfl⟩ : ∃ k, fuel = k + 1 := ⟨fuel - 1, by simp at hf; omega⟩
              rw [hstep]
              rcases List.mem_cons.1 hx with rfl | hx
              · exact absurd hacc hna
              · exact h2 ⟨x, hx, hna⟩ fuel (by simpa using hf)

/-- **C36** (exactly).  The expansion of directories fails if an entry does not exist, or
is a directory with a file name as its outputPath, or below a directory there is a link
with a YAML name that leads nowhere; otherwise, it never finishes if below a directory there
is a link with a YAML name to a directory; otherwise the entries that are not directories
are kept in their order, followed, for each directory entry in order, by one entry per
file of the directory with that entry's overlays. -/
theorem C36_expansion {O D : Type} (fs : Fs) (dir : Str) (hd : DirKnown dir) (hc : Consistent fs) (ys : List (Entry O D)) :
    (∃ N, ∀ fuel, N ≤ fuel →
      (¬ Refused fs dir ys → ¬ LinkedDir fs dir ys → expandLoop fs dir fuel [] ys = .done (expand fs dir ys)) ∧
      (Refused fs dir ys → expandLoop fs dir fuel [] ys = .err)) ∧
    (Endless fs dir ys → ∀ fuel, expandLoop fs dir fuel [] ys = .running) := by
  obtain ⟨f1, f2⟩ := expandLoop_first fs dir ys [] []
  simp only [List.append_nil, List.nil_append] at f1 f2
  generalize hB : (ys.filter (fun y => IsDirEntry fs dir y)).flatMap
    (fun y => (getFileNames fs (resolvePath dir y.path)).map y.forFile) = B at f1
  have hpaths : B.map (·.path) = below fs dir ys := by
    rw [← hB]; unfold below
    rw [List.map_flatMap]
    congr 1
    funext y
    rw [List.map_map]
    exact List.map_id _
  have hexp : expand fs dir ys = (ys.filter (fun y => ¬ IsDirEntry fs dir y)).map (located dir) ++ B := by
    rw [← hB]; rfl
  by_cases hacc : ∀ y ∈ ys, Acceptable fs dir y
  · have hfrom : ∀ b ∈ B, FromDir fs dir b := by
      intro b hb
      rw [← hB] at hb
      obtain ⟨y, hy, hf⟩ := List.mem_flatMap.1 hb
      obtain ⟨f, hff, rfl⟩ := List.mem_map.1 hf
      obtain ⟨hy1, hy2⟩ := List.mem_filter.1 hy
      have hdir : IsDirEntry fs dir y := by simpa using hy2
      obtain ⟨w1, w2⟩ := walked_linked fs hc _ f hff
      refine ⟨w1, walked_resolved fs dir hd _ f hff, ?_, w2⟩
      rcases hacc y hy1 with h | h | ⟨_, h⟩
      · exact absurd h hdir.1
      · rw [hdir.2] at h; cases h
      · exact (extOf_iff _).2 h
    refine ⟨⟨ys.length + B.length + 1, fun fuel hfuel => ⟨?_, ?_⟩⟩, ?_⟩
    · intro hr hl
      have := f1 hacc (fuel - ys.length)
      rw [Nat.sub_add_cancel (by omega)] at this
      rw [this, expandLoop_plain fs dir B _ _ ?_ (by omega), hexp]
      intro b hb
      refine ⟨(hfrom b hb).stdin, ?_, (hfrom b hb).resolved⟩
      have hm : b.path ∈ below fs dir ys := by rw [← hpaths]; exact List.mem_map_of_mem hb
      cases hk : isDirectory fs b.path with
      | none => exact absurd (.inr ⟨_, hm, hk⟩) hr
      | some v =>
        cases v with
        | false => rfl
        | true => exact absurd ⟨_, hm, hk⟩ hl
    · intro hr
      rcases hr with ⟨y, hy, hn⟩ | ⟨f, hf, hn⟩
      · exact absurd (hacc y hy) hn
      · rw [← hpaths] at hf
        obtain ⟨b, hb, rfl⟩ := List.mem_map.1 hf
        have := f1 hacc (fuel - ys.length)
        rw [Nat.sub_add_cancel (by omega)] at this
        rw [this]
        obtain ⟨B1, B2, rfl⟩ := List.append_of_mem hb
        exact expandLoop_dangling fs dir B1 B2 _ b (fun x hx => hfrom x (by simp [hx])) (hfrom b hb) hn _ (by
          simp at hfuel; omega)
    · rintro ⟨hr, f, hf, hk⟩ fuel
      apply running_less fs dir [] ys ys.length
      rw [f1 hacc]
      rw [← hpaths] at hf
      obtain ⟨b, hb, rfl⟩ := List.mem_map.1 hf
      apply expandLoop_forever
      · intro x hx
        refine ⟨hfrom x hx, fun hn => hr (.inr ⟨x.path, ?_, hn⟩)⟩
        rw [← hpaths]; exact List.mem_map_of_mem hx
      · exact ⟨b, hb, hk⟩
  · have hna : ∃ y ∈ ys, ¬ Acceptable fs dir y := by
      by_contra h
      apply hacc
      intro y hy
      by_contra hn
      exact h ⟨y, hy, hn⟩
    exact ⟨⟨ys.length, fun fuel hfuel => ⟨fun hr => absurd (.inl hna) hr, fun _ => f2 hna fuel hfuel⟩⟩,
      fun hr => absurd (.inl hna) hr.1⟩

/-- A directory with two YAML files at different depths, and another file (`/` and
`/w` are given without their entries, as links to directories). -/
def Ex.someFs : Fs := fun p =>
  if p = c!"/" then some (.link (some true))
  else if p = c!"/w" then some (.link (some true))
  else if p = c!"/w/d" then some (.dir [(c!"a.yaml", .file), (c!"s", .dir [(c!"b.yml", .link (some false)), (c!"c.txt", .file)])])
  else if p = c!"/w/d/a.yaml" then some .file
  else if p = c!"/w/d/s" then some (.dir [(c!"b.yml", .link (some false)), (c!"c.txt", .file)])
  else if p = c!"/w/d/s/b.yml" then some (.link (some false))
  else if p = c!"/w/d/s/c.txt" then some .file
  else if p = c!"/w/x.yaml" then some .file
  else none

theorem Ex.someFs_consistent : Consistent Ex.someFs := by
  intro p es c n h hm
  unfold Ex.someFs at h
  split at h
  · cases h
  split at h
  · cases h
  split at h
  · rename_i hp; subst hp; cases h
    simp only [List.mem_cons, List.not_mem_nil, or_false, Prod.mk.injEq] at hm
    rcases hm with ⟨rfl, rfl⟩ | ⟨rfl, rfl⟩ <;> rfl
  · split at h
    · cases h
    · split at h
      · rename_i hp; subst hp; cases h
        simp only [List.mem_cons, List.not_mem_nil, or_false, Prod.mk.injEq] at hm
        rcases hm with ⟨rfl, rfl⟩ | ⟨rfl, rfl⟩ <;> rfl
      · split at h
        · cases h
        · split at h
          · cases h
          · split at h <;> cases h

example : TreeLike Ex.someFs where
  root := by decide
  parent := by
    intro p c hn h
    have inj : ∀ q : List Str, (∀ d ∈ q, IsName d) → absPath (p ++ [c]) = absPath q → p ++ [c] = q :=
      fun q hq e => absPath_injective hn hq e
    have fin : ∀ q : List Str, q ≠ [] → (∀ d ∈ q, IsName d) → absPath (p ++ [c]) = absPath q →
        isDirectory Ex.someFs (absPath q.dropLast) = some true → isDirectory Ex.someFs (absPath p) = some true := by
      intro q hq hqn e hd
      have := inj q hqn e
      have hp : p = q.dropLast := by rw [← this]; simp
      rw [hp]; exact hd
    unfold Ex.someFs at h
    split at h
    · rename_i e
      have := inj [] (by simp) e
      simp at this
    split at h
    · rename_i e; exact fin [c!"w"] (by decide) (by decide) e (by decide)
    split at h
    · rename_i e; exact fin [c!"w", c!"d"] (by decide) (by decide) e (by decide)
    split at h
    · rename_i e; exact fin [c!"w", c!"d", c!"a.yaml"] (by decide) (by decide) e (by decide)
    split at h
    · rename_i e; exact fin [c!"w", c!"d", c!"s"] (by decide) (by decide) e (by decide)
    split at h
    · rename_i e; exact fin [c!"w", c!"d", c!"s", c!"b.yml"] (by decide) (by decide) e (by decide)
    split at h
    · rename_i e; exact fin [c!"w", c!"d", c!"s", c!"c.txt"] (by decide) (by decide) e (by decide)
    split at h
    · rename_i e; exact fin [c!"w", c!"x.yaml"] (by decide) (by decide) e (by decide)
    · exact absurd rfl h

example : (match expandLoop Ex.someFs c!"/w" 10 [] [{ path := c!"d", outputPath := c!"o" }, ({ path := c!"x.yaml" } : YamlFile)] with
    | .done l => l.map (fun y => (y.path, y.outputPath))
    | _ => []) =
    [(c!"/w/x.yaml", []), (c!"/w/d/a.yaml", c!"o"), (c!"/w/d/s/b.yml", c!"o")] := by decide

/-- The two entries of the example are listed. -/
theorem Ex.someFs_read {O D : Type} (read : Str → Option (List Node)) (hr : ∀ p, (read p).isSome) (ys : List (Entry O D))
    (h : ∀ y ∈ ys, (y.path = c!"d" ∧ ¬ HasExt y.outputPath) ∨ resolvePath c!"/w" y.path = c!"/w/x.yaml") :
    FilesRead Ex.someFs c!"/w" read ys := by
  have hb : ∀ f ∈ below Ex.someFs c!"/w" ys, isDirectory Ex.someFs f = some false := by
    intro f hf
    obtain ⟨y, hy, hf⟩ := List.mem_flatMap.1 hf
    obtain ⟨hy, hd⟩ := List.mem_filter.1 hy
    have hd : IsDirEntry Ex.someFs c!"/w" y := by simpa using hd
    rcases h y hy with ⟨hp, _⟩ | hp
    · rw [hp, show getFileNames Ex.someFs (resolvePath c!"/w" c!"d") = [c!"/w/d/a.yaml", c!"/w/d/s/b.yml"] by decide] at hf
      simp only [List.mem_cons, List.not_mem_nil, or_false] at hf
      rcases hf with rfl | rfl <;> decide
    · have := hd.2
      rw [hp] at this
      exact absurd this (by decide)
  refine ⟨?_, ?_, fun y _ => hr _⟩
  · rintro (⟨y, hy, hn⟩ | ⟨f, hf, hn⟩)
    · apply hn
      rcases h y hy with ⟨hp, ho⟩ | hp
      · exact .inr (.inr ⟨by rw [hp]; decide, ho⟩)
      · exact .inr (.inl (by rw [hp]; decide))
    · rw [hb f hf] at hn; cases hn
  · rintro ⟨f, hf, hn⟩
    rw [hb f hf] at hn; cases hn

/-- A directory with a link that leads nowhere is refused ... -/
example : Refused (fun p => if p = c!"/d" then some (.dir [(c!"l.yaml", .link none)]) else if p = c!"/d/l.yaml" then some (.link none) else none)
    [] [({ path := c!"/d" } : YamlFile)] := .inr ⟨c!"/d/l.yaml", by decide, by decide⟩

/-- ... and one with a link to a directory is listed without end. -/
example : Endless (fun p => if p = c!"/d" then some (.dir [(c!"l.yaml", .link (some true))]) else if p = c!"/d/l.yaml" then some (.link (some true)) else none)
    [] [({ path := c!"/d" } : YamlFile)] := by
  refine ⟨?_, c!"/d/l.yaml", by decide, by decide⟩
  rintro (⟨y, hy, hn⟩ | ⟨f, hf, hn⟩)
  · rw [List.mem_singleton.1 hy] at hn
    exact hn (.inr (.inr ⟨by decide, (extOf_iff _).1 (by decide)⟩))
  · rw [show f = c!"/d/l.yaml" by simpa using (show f ∈ [c!"/d/l.yaml"] from hf)] at hn
    exact absurd hn (by decide)

/-- **C36** fails for a link with a YAML name to a directory: the expansion never
finishes. -/
theorem C36_link_loops (fs : Fs) (h : fs c!"/w/l.yaml" = some (.link (some true))) (fuel : Nat) :
    (match expandLoop fs c!"/w" fuel [] [({ path := c!"l.yaml" } : YamlFile)] with
      | .running => True
      | _ => False) := by
  have hg : getFileNames fs c!"/w/l.yaml" = [c!"/w/l.yaml"] := by
    unfold getFileNames
    rw [h]
    simp only [walkFs]
    rw [if_pos (by decide)]
  have step : ∀ (fuel : Nat) (p : Str), p ≠ ['-'] → resolvePath c!"/w" p = c!"/w/l.yaml" →
      (match expandLoop fs c!"/w" fuel [] [({ path := p } : YamlFile)] with
      | .running => True
      | _ => False) := by
    intro fuel
    induction fuel with
    | zero => intro p _ _; simp [expandLoop]
    | succ n ih =>
      intro p h1 h2
      simp only [expandLoop]
      rw [if_neg h1, h2]
      have hdir : isDirectory fs c!"/w/l.yaml" = some true := by unfold isDirectory; rw [h]
      rw [hdir]
      simp only
      rw [if_neg (by decide), hg]
      exact ih c!"/w/l.yaml" (by decide) (by decide)
  exact step fuel _ (by decide) (by decide)

/-- **C36** fails for an entry naming a link to a directory: it is taken for a
directory without any files. -/
theorem C36_linked_directory (fs : Fs) (h : fs c!"/w/d" = some (.link (some true))) (fuel : Nat) :
    expandLoop fs c!"/w" (fuel + 1) [] [({ path := c!"d" } : YamlFile)] = .done [] := by
  have hr : resolvePath c!"/w" c!"d" = c!"/w/d" := by decide
  have hg : getFileNames fs c!"/w/d" = [] := by
    unfold getFileNames
    rw [h]
    simp only [walkFs]
    rw [if_neg (by decide)]
  have hdir : isDirectory fs c!"/w/d" = some true := by unfold isDirectory; rw [h]
  simp only [expandLoop]
  rw [if_neg (by decide), hr, hdir]
  simp only
  rw [if_neg (by decide), hg]
  simp [expandLoop]

/-! ### From an instructions file to the hypotheses of C37-C40 -/

theorem below_exists (fs : Fs) (ht : TreeLike fs) (p : List Str) (r : List Str) (hr : r ≠ [])
    (hn : ∀ c ∈ p ++ r, IsName c) (h : fs (absPath (p ++ r)) ≠ none) : isDirectory fs (absPath p) = some true := by
  induction r using snocInduction with
  | h0 => exact absurd rfl hr
  | h1 r c ih =>
    by_cases h0 : r = []
    · subst h0
      exact ht.parent p c (by simpa using hn) (by simpa using h)
    · apply ih h0 (fun d hd => hn d (by simp only [List.mem_append] at hd ⊢; tauto))
      have := ht.parent (p ++ r) c (by simpa using hn) (by simpa using h)
      intro e
      unfold isDirectory at this
      rw [e] at this
      cases this

/-- The entries after expanding directories and merging duplicates, for an
instructions file in an absolute directory whose absolute entries are clean, are as
C37-C40 ask for, unless the only file is directly in the root directory. -/
theorem C37_reachable (fs : Fs) (dir : Str) (hd : isAbs dir = true) (hc : Consistent fs)
    (ht : TreeLike fs) (ys zs : List YamlFile) (hcl : ∀ y ∈ ys, isAbs y.path = true → clean y.path = y.path)
    (N : Nat) (hz : ∀ fuel, N ≤ fuel → expandLoop fs dir fuel [] ys = .done zs)
    (hroot : ∀ b, ((mergeDuplicates zs).map (·.path)).filter (· ≠ ['-']) ≠ [absPath [b]]) :
    ∃ ps, Entries (mergeDuplicates zs) ps := by
  obtain ⟨⟨M, hM⟩, h3⟩ := C36_expansion fs dir (.inr hd) hc ys
  obtain ⟨h1, h2⟩ := hM (max M N) (by omega)
  have hzN := hz (max M N) (by omega)
  rw [hzN] at h1 h2
  have hnr : ¬ Refused fs dir ys := fun hn => by cases h2 hn
  have hnl : ¬ LinkedDir fs dir ys := fun hn => by
    have := h3 ⟨hnr, hn⟩ (max M N)
    rw [hzN] at this
    cases this
  have hacc : ∀ y ∈ ys, Acceptable fs dir y := by
    intro y hy
    by_contra hn
    exact hnr (.inl ⟨y, hy, hn⟩)
  have hzs := h1 hnr hnl
  unfold expand at hzs
  simp only [Expanded.done.injEq] at hzs
  -- every path is `-` or a clean absolute path of a file
  have key : ∀ z ∈ zs, z.path ≠ ['-'] → (∃ cs : List Str, (∀ c ∈ cs, IsName c) ∧ z.path = absPath cs) ∧
      isDirectory fs z.path = some false := by
    intro z hzm hne
    rw [hzs] at hzm
    rcases List.mem_append.1 hzm with h | h
    · obtain ⟨y, hy, rfl⟩ := List.mem_map.1 h
      obtain ⟨hy1, hy2⟩ := List.mem_filter.1 hy
      have hnd : ¬ IsDirEntry fs dir y := by simpa using hy2
      unfold located at hne ⊢
      split at hne
      · rename_i hp; exact absurd hp hne
      · rename_i hp
        rw [if_neg hp]
        simp only
        constructor
        · unfold resolvePath
          split
          · rename_i ha
            obtain ⟨cs, c1, c2⟩ := clean_abs _ ha
            exact ⟨cs, c1, by rw [← c2, hcl y hy1 ha]⟩
          · have ha := isAbs_pathJoin dir y.path hd
            obtain ⟨cs, c1, c2⟩ := clean_abs _ ha
            refine ⟨cs, c1, ?_⟩
            rw [← c2]
            rcases pathJoin_clean [dir, y.path] with e | e
            · rw [e] at ha; cases ha
            · exact e.symm
        · rcases hacc y hy1 with h | h | ⟨h, _⟩
          · exact absurd h hp
          · exact h
          · exact absurd ⟨hp, h⟩ hnd
    · obtain ⟨y, hy, hf⟩ := List.mem_flatMap.1 h
      obtain ⟨f, hff, rfl⟩ := List.mem_map.1 hf
      refine ⟨?_, by
        have hm : f ∈ below fs dir ys := List.mem_flatMap.2 ⟨y, hy, hff⟩
        show isDirectory fs f = some false
        cases hk : isDirectory fs f with
        | none => exact absurd (.inr ⟨_, hm, hk⟩) hnr
        | some v =>
          cases v with
          | false => rfl
          | true => exact absurd ⟨_, hm, hk⟩ hnl⟩
      simp only
      obtain ⟨_, cs, _, _, _, _, rfl, _⟩ := (C36_files _ _ _).1 hff
      obtain ⟨hy1, hy2⟩ := List.mem_filter.1 hy
      have hroot : isAbs (resolvePath dir y.path) = true ∧ clean (resolvePath dir y.path) = resolvePath dir y.path := by
        unfold resolvePath
        split
        · rename_i ha; exact ⟨ha, hcl y hy1 ha⟩
        · have ha := isAbs_pathJoin dir y.path hd
          refine ⟨ha, ?_⟩
          rcases pathJoin_clean [dir, y.path] with e | e
          · rw [e] at ha; cases ha
          · exact e
      have step : ∀ (cs : List Str) (q : Str), isAbs q = true ∧ clean q = q →
          isAbs (cs.foldl (fun p c => pathJoin [p, c]) q) = true ∧
          clean (cs.foldl (fun p c => pathJoin [p, c]) q) = cs.foldl (fun p c => pathJoin [p, c]) q := by
        intro cs
        induction cs with
        | nil => intro q h; exact h
        | cons c cs ih =>
          intro q h
          rw [List.foldl_cons]
          apply ih
          have ha := isAbs_pathJoin q c h.1
          refine ⟨ha, ?_⟩
          rcases pathJoin_clean [q, c] with e | e
          · rw [e] at ha; cases ha
          · exact e
      obtain ⟨s1, s2⟩ := step cs _ hroot
      obtain ⟨ps, p1, p2⟩ := clean_abs _ s1
      exact ⟨ps, p1, by rw [← p2, s2]⟩
  have hpaths := C35_paths zs
  generalize hP : ((mergeDuplicates zs).map (·.path)).filter (· ≠ ['-']) = P at hroot
  have hPn : P.Nodup := by
    rw [← hP]
    rw [hpaths]
    exact (firsts_nodup _).sublist List.filter_sublist
  have hPk : ∀ p ∈ P, (∃ cs : List Str, (∀ c ∈ cs, IsName c) ∧ p = absPath cs) ∧ isDirectory fs p = some false := by
    intro p hp
    rw [← hP] at hp
    obtain ⟨hp1, hp2⟩ := List.mem_filter.1 hp
    rw [hpaths, firsts_mem] at hp1
    obtain ⟨z, hz, rfl⟩ := List.mem_map.1 hp1
    exact key z hz (by simpa using hp2)
  have hex : ∀ (P : List Str), (∀ p ∈ P, ∃ cs : List Str, (∀ c ∈ cs, IsName c) ∧ p = absPath cs) →
      ∃ ps : List (List Str), P = ps.map absPath ∧ ∀ q ∈ ps, ∀ c ∈ q, IsName c := by
    intro P
    induction P with
    | nil => intro _; exact ⟨[], rfl, by simp⟩
    | cons p P ih =>
      intro h
      obtain ⟨cs, c1, c2⟩ := h p (by simp)
      obtain ⟨ps, p1, p2⟩ := ih (fun q hq => h q (by simp [hq]))
      refine ⟨cs :: ps, by rw [List.map_cons, ← p1, c2], ?_⟩
      intro q hq
      rcases List.mem_cons.1 hq with rfl | hq
      · exact c1
      · exact p2 q hq
  obtain ⟨ps, p1, p2⟩ := hex P (fun p hp => (hPk p hp).1)
  have hfile : ∀ p ∈ ps, isDirectory fs (absPath p) = some false := by
    intro p hp
    exact (hPk _ (by rw [p1]; exact List.mem_map_of_mem hp)).2
  refine ⟨ps, ⟨hP.trans p1, ⟨?_, ?_, ?_, ?_⟩⟩⟩
  · intro p hp
    refine ⟨?_, p2 p hp⟩
    rintro rfl
    have := hfile _ hp
    rw [show absPath [] = ['/'] from rfl, ht.root] at this
    cases this
  · rw [p1] at hPn
    exact (List.pairwise_map.1 hPn).imp (fun h e => h (by rw [e]))
  · rintro p hp q hq ⟨r, hr, rfl⟩
    have h3 := hfile _ hq
    have : fs (absPath (p ++ r)) ≠ none := by
      intro e
      unfold isDirectory at h3
      rw [e] at h3
      cases h3
    have h4 := hfile _ hp
    rw [below_exists fs ht p r hr (p2 _ hq) this] at h4
    cases h4
  · intro p hp
    subst hp
    by_contra hlen
    match p, hlen with
    | [], _ =>
      have := hfile [] (by simp)
      rw [show absPath [] = ['/'] from rfl, ht.root] at this
      cases this
    | [b], _ => exact hroot b (by rw [p1]; rfl)
    | _ :: _ :: _, h => simp at h

end Yot
