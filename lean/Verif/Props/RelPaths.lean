import Verif.Props.Paths
/-
C37, C38: relative input paths, as `--path` gives them without an instructions file.
-/
namespace Yot

open Spec

/-- The entries before `setOutputPath`, with relative paths: lists of names, possibly `-`; no file is
inside another. -/
structure RelEntries (ys : List YamlFile) (ps : List (List Str)) : Prop where
  paths : (ys.map (·.path)).filter (· ≠ ['-']) = ps.map relPath
  names : ∀ p ∈ ps, p ≠ [] ∧ ∀ c ∈ p, IsName c
  nodup : ps.Nodup
  files : ∀ p ∈ ps, ∀ q ∈ ps, ¬ Below p q

theorem clean_relPath (p : List Str) (hne : p ≠ []) (h : ∀ c ∈ p, IsName c) : clean (relPath p) = relPath p := by
  have := pathJoin_under [] p hne h
  have hc : clean [] = ['.'] := by decide
  rw [hc] at this
  simp only [under, if_true] at this
  have hr := relPath_ne_nil hne h
  unfold pathJoin at this
  simpa [hr, joinWith] using this

/-- The names with a slash after each. -/
def slashed (p : List Str) : Str := p.flatMap (fun c => c ++ ['/'])

theorem slashed_prefix_iff (d p : List Str) (hd : ∀ c ∈ d, '/' ∉ c) (hp : ∀ c ∈ p, '/' ∉ c) :
    slashed d <+: slashed p ↔ d <+: p := by
  rw [← dirText_prefix_iff d p hd hp]
  unfold dirText slashed
  rw [List.cons_prefix_cons]
  simp

theorem slashed_ends (d : List Str) (h0 : d ≠ []) : ∃ x, slashed d = x ++ ['/'] :=
  ⟨relPath d, (relPath_slash d h0).symm⟩

theorem slashed_cons (c : Str) (p : List Str) : slashed (c :: p) = c ++ '/' :: slashed p := by
  simp [slashed]

/-- A text without slash is a prefix of a path exactly if it is one of its first name. -/
theorem noslash_prefix {x c : Str} {p : List Str} (hx : '/' ∉ x) : x <+: slashed (c :: p) ↔ x <+: c := by
  rw [slashed_cons]
  constructor
  · intro h
    rcases List.prefix_or_prefix_of_prefix h (List.prefix_append c _) with h1 | h1
    · exact h1
    · obtain ⟨t, rfl⟩ := h1
      rw [List.prefix_append_right_inj] at h
      cases t with
      | nil => simp
      | cons a t =>
        rw [List.cons_prefix_cons] at h
        exact absurd (by rw [h.1]; simp) hx
  · rintro ⟨t, rfl⟩
    exact ⟨t ++ '/' :: slashed p, by simp⟩

/-- A directory text without inner slash is a prefix of a path exactly if it is its first name. -/
theorem noslash_dir_prefix {x c : Str} {p : List Str} (hx : '/' ∉ x) (hc : '/' ∉ c) : x ++ ['/'] <+: slashed (c :: p) ↔ x = c := by
  constructor
  · rintro h
    have h1 : x <+: c := (noslash_prefix hx).1 ((List.prefix_append x ['/']).trans h)
    obtain ⟨t, rfl⟩ := h1
    rw [slashed_cons, List.append_assoc, List.prefix_append_right_inj] at h
    cases t with
    | nil => simp
    | cons a t =>
      simp only [List.cons_append, List.cons_prefix_cons] at h
      exact absurd (by simp [← h.1]) hc
  · rintro rfl
    rw [slashed_cons]
    exact ⟨slashed p, by simp⟩

/-- What all the paths have in common. -/
theorem relPrefix_many (p q : List Str) (ps : List (List Str))
    (hn : ∀ p' ∈ p :: q :: ps, p' ≠ [] ∧ ∀ c ∈ p', IsName c) :
    ∃ C, getCommonPrefix ((p :: q :: ps).map relPath) = cutLastSlash C ++ ['/'] ∧
      ∀ x, x <+: C ↔ ∀ p' ∈ p :: q :: ps, x <+: slashed p' := by
  have hcl : ∀ p' ∈ p :: q :: ps, clean (relPath p') ++ ['/'] = slashed p' := by
    intro p' h
    rw [clean_relPath _ (hn p' h).1 (hn p' h).2, relPath_slash _ (hn p' h).1]
    rfl
  refine ⟨((q :: ps).map slashed).foldl lcp (slashed p), ?_, ?_⟩
  · simp only [List.map_cons, getCommonPrefix]
    rw [hcl p (by simp)]
    congr 2
    rw [← List.map_cons (f := slashed), ← List.map_cons (f := relPath)]
    rw [List.foldl_map, List.foldl_map]
    have : ∀ (l : List (List Str)), (∀ p' ∈ l, clean (relPath p') ++ ['/'] = slashed p') → ∀ c,
        l.foldl (fun x y => lcp x (clean (relPath y) ++ ['/'])) c = l.foldl (fun x y => lcp x (slashed y)) c := by
      intro l
      induction l with
      | nil => intro _ _; rfl
      | cons a l ih =>
        intro h c
        rw [List.foldl_cons, List.foldl_cons, h a (by simp), ih (fun x hx => h x (by simp [hx]))]
    exact this _ (fun p' h => hcl p' (by simp only [List.mem_cons] at h ⊢; tauto)) _
  · intro x
    rw [foldl_lcp]
    constructor
    · rintro ⟨h1, h2⟩ p' hp'
      rcases List.mem_cons.1 hp' with rfl | hp'
      · exact h1
      · exact h2 _ (List.mem_map_of_mem hp')
    · intro h
      refine ⟨h p (by simp), ?_⟩
      intro v hv
      obtain ⟨p', hp', rfl⟩ := List.mem_map.1 hv
      exact h p' (List.mem_cons_of_mem _ hp')

theorem relPath_split (d r : List Str) (hr : r ≠ []) : relPath (d ++ r) = slashed d ++ relPath r := by
  have := absPath_split d r hr
  unfold absPath dirText at this
  simpa [slashed] using this

theorem trimPrefix_none {a b : Str} (h : ¬ a <+: b) : trimPrefix a b = b := by
  unfold trimPrefix
  rw [if_neg]
  intro hp
  apply h
  unfold hasPrefix at hp
  simpa using hp

/-- What is cut off the relative paths `ps`: the directory that all of them are in, if there is one;
otherwise the longest text that all first names begin with, where that is the whole name. -/
inductive Cut (ps : List (List Str)) (cut : List Str → List Str) : Prop
  | directory (d : List Str) : (d = [] → ps.length ≤ 1) → (∀ p ∈ ps, Below d p) → (∀ d', (∀ p ∈ ps, Below d' p) → d' <+: d) →
      (∀ r, r ≠ [] → cut (d ++ r) = r) → Cut ps cut
  | none (x : Str) : (∀ c p, c :: p ∈ ps → x <+: c) → (∀ x', '/' ∉ x' → (∀ c p, c :: p ∈ ps → x' <+: c) → x' <+: x) →
      (∃ c p, c :: p ∈ ps ∧ c ≠ x) → (∀ r, r ≠ [] → cut (x :: r) = r) → cut [x] = [x] →
      (∀ c p, c ≠ x → cut (c :: p) = c :: p) → Cut ps cut

theorem trim_dir {d r : List Str} (hr : r ≠ []) : trimPrefix (slashed d) (relPath (d ++ r)) = relPath r := by
  rw [relPath_split d r hr, trimPrefix_append]

theorem trim_first {x : Str} (hx : '/' ∉ x) {c : Str} {p : List Str} (hc : '/' ∉ c) (h : ¬ (c = x ∧ p ≠ [])) :
    trimPrefix (x ++ ['/']) (relPath (c :: p)) = relPath (c :: p) := by
  apply trimPrefix_none
  intro hp
  have h1 : x ++ ['/'] <+: slashed (c :: p) := by
    unfold slashed
    rw [← relPath_slash (c :: p) (by simp)]
    exact hp.trans (List.prefix_append _ _)
  have h2 := (noslash_dir_prefix hx hc).1 h1
  subst h2
  refine h ⟨rfl, ?_⟩
  rintro rfl
  have := hp.length_le
  simp [relPath] at this
  omega

theorem clean_relPath_slash (d : List Str) (h0 : d ≠ []) (hd : ∀ c ∈ d, IsName c) : clean (relPath d ++ ['/']) = relPath d := by
  have ha0 : isAbs (relPath d) = false := isAbs_relPath h0 hd
  have hr := relPath_ne_nil h0 hd
  have ha : isAbs (relPath d ++ ['/']) = false := by
    cases hh : relPath d with
    | nil => exact absurd hh hr
    | cons a t => rw [hh] at ha0; simpa [isAbs] using ha0
  have hst : stackOf (relPath d ++ ['/']) = stackOf (relPath d) := by
    unfold stackOf
    rw [ha, ha0, splitOn_append, List.foldl_append]
    simp [splitOn, cleanStep]
  have hc := clean_relPath d h0 hd
  rw [clean_eq] at hc ⊢
  rw [ha, hst]
  rw [ha0] at hc
  exact hc

theorem uptoSlash_none {b : Str} (hb : '/' ∉ b) : uptoSlash b = [] := by
  unfold uptoSlash
  have : ∀ l : Str, '/' ∉ l → l.dropWhile (· ≠ '/') = [] := by
    intro l
    induction l with
    | nil => intro _; rfl
    | cons a l ih =>
      intro h
      have h1 : a ≠ '/' := fun e => h (by simp [e])
      rw [List.dropWhile_cons, if_pos (by simpa using h1), ih (fun e => h (by simp [e]))]
  rw [this _ (by simpa using hb)]
  rfl

theorem below_prefix {d d' : List Str} {b : Str} (h : Below d' (d ++ [b])) : d' <+: d := by
  obtain ⟨r, hr, e⟩ := h
  rcases List.eq_nil_or_concat r with rfl | ⟨r', b', rfl⟩
  · exact absurd rfl hr
  · rw [List.concat_eq_append, ← List.append_assoc] at e
    exact ⟨r', ((List.append_inj' e rfl).1).symm⟩

/-- The common prefix of relative paths and what is left of each. -/
theorem rel_cut {ps : List (List Str)} (hne : ps ≠ []) (names : ∀ p ∈ ps, p ≠ [] ∧ ∀ c ∈ p, IsName c)
    (files : ∀ p ∈ ps, ∀ q ∈ ps, ¬ Below p q) (nodup : ps.Nodup) :
    ∃ cut, Cut ps cut ∧ ∀ p ∈ ps, trimPrefix (getCommonPrefix (ps.map relPath)) (relPath p) = relPath (cut p) := by
  have nosl : ∀ p' ∈ ps, ∀ c ∈ p', '/' ∉ c := fun p' h' => names_noslash (names p' h').2
  -- the two ways in which it goes
  have viaDir : ∀ d, (d = [] → ps.length ≤ 1) → (∀ p ∈ ps, Below d p) → (∀ d', (∀ p ∈ ps, Below d' p) → d' <+: d) →
      (∀ p ∈ ps, trimPrefix (getCommonPrefix (ps.map relPath)) (relPath p) = trimPrefix (slashed d) (relPath p)) →
      ∃ cut, Cut ps cut ∧ ∀ p ∈ ps, trimPrefix (getCommonPrefix (ps.map relPath)) (relPath p) = relPath (cut p) := by
    intro d hd hb hmax he
    refine ⟨fun p => p.drop d.length, .directory d hd hb hmax (by simp), ?_⟩
    intro p hp
    rw [he p hp]
    obtain ⟨r, hr, rfl⟩ := hb p hp
    rw [trim_dir hr]
    simp
  have viaText : ∀ x, '/' ∉ x → (∀ c p, c :: p ∈ ps → x <+: c) →
      (∀ x', '/' ∉ x' → (∀ c p, c :: p ∈ ps → x' <+: c) → x' <+: x) → (∃ c p, c :: p ∈ ps ∧ c ≠ x) →
      (∀ p ∈ ps, trimPrefix (getCommonPrefix (ps.map relPath)) (relPath p) = trimPrefix (x ++ ['/']) (relPath p)) →
      ∃ cut, Cut ps cut ∧ ∀ p ∈ ps, trimPrefix (getCommonPrefix (ps.map relPath)) (relPath p) = relPath (cut p) := by
    intro x hx hpre hmax hsome he
    refine ⟨fun p => match p with | [] => [] | c :: r => if c = x ∧ r ≠ [] then r else c :: r,
      .none x hpre hmax hsome (fun r hr => by simp [hr]) (by simp) (fun c p hc => by simp [hc]), ?_⟩
    intro p hp
    rw [he p hp]
    cases p with
    | nil => exact absurd rfl (names _ hp).1
    | cons c r =>
      simp only
      by_cases hc : c = x ∧ r ≠ []
      · rw [if_pos hc]
        obtain ⟨rfl, hr⟩ := hc
        have := trim_dir (d := [c]) hr
        simpa [slashed] using this
      · rw [if_neg hc]
        exact trim_first hx (nosl _ hp c (by simp)) hc
  match ps, hne with
  | [p], _ =>
    obtain ⟨h0, hn⟩ := names p (by simp)
    rcases List.eq_nil_or_concat p with rfl | ⟨d, b, e⟩
    · exact absurd rfl h0
    · rw [List.concat_eq_append] at e
      subst e
      have hb : '/' ∉ b := (hn b (by simp)).2.2.2
      refine viaDir d (by simp) ?_ ?_ ?_
      · intro p hp
        simp only [List.mem_singleton] at hp
        exact ⟨[b], by simp, hp⟩
      · intro d' h'
        exact below_prefix (h' (d ++ [b]) (List.mem_singleton.2 rfl))
      · intro p hp
        simp only [List.mem_singleton] at hp
        subst hp
        simp only [List.map_cons, List.map_nil, getCommonPrefix, dirOf]
        rw [clean_relPath _ h0 hn]
        by_cases hd : d = []
        · subst hd
          have h1 : uptoSlash (relPath ([] ++ [b])) = [] := uptoSlash_none hb
          have h2 : clean ([] : Str) = ['.'] := by decide
          rw [h1, h2]
          have h3 := trim_first (x := ['.']) (by decide) (c := b) (p := []) hb (by simp)
          rw [List.nil_append, h3]
          simp [slashed, trimPrefix, hasPrefix]
        · have hs : relPath (d ++ [b]) = relPath d ++ '/' :: b := by
            rw [relPath_split d [b] (by simp)]
            unfold slashed
            rw [← relPath_slash d hd]
            simp [relPath]
          rw [hs, uptoSlash_concat _ _ hb, clean_relPath_slash d hd (fun c hc => hn c (by simp [hc])), relPath_slash d hd]
          rfl
  | p :: q :: ps, _ =>
    obtain ⟨C, hC, hpre⟩ := relPrefix_many p q ps names
    by_cases hs : '/' ∈ C
    · obtain ⟨c1, c2⟩ := cutLastSlash_spec C hs
      have hall := (hpre _).1 c1
      obtain ⟨d, hd, hde⟩ : ∃ d, d <+: p ∧ cutLastSlash C ++ ['/'] = slashed d := by
        obtain ⟨d, h1, h2⟩ := prefix_dirText ('/' :: cutLastSlash C) p (nosl p (by simp)) (by
          unfold dirText
          rw [List.cons_append, List.cons_prefix_cons]
          exact ⟨rfl, hall p (by simp)⟩)
        refine ⟨d, h1, ?_⟩
        unfold dirText at h2
        simpa [slashed] using h2
      have hdn : ∀ c ∈ d, '/' ∉ c := fun c hc => nosl p (by simp) c (hd.subset hc)
      have hpref : ∀ p' ∈ p :: q :: ps, d <+: p' := by
        intro p' hp'
        have := hall p' hp'
        rw [hde] at this
        exact (slashed_prefix_iff d p' hdn (nosl p' hp')).1 this
      have hb : ∀ p' ∈ p :: q :: ps, Below d p' := by
        have key : ∀ p' ∈ p :: q :: ps, d ≠ p' := by
          rintro p' hp' rfl
          have : ∀ p'' ∈ p :: q :: ps, p'' = d := by
            intro p'' hp''
            obtain ⟨r, rfl⟩ := hpref p'' hp''
            by_cases hr : r = []
            · simp [hr]
            · exact absurd ⟨r, hr, rfl⟩ (files d hp' _ hp'')
          have e1 := this p (by simp)
          have e2 := this q (by simp)
          rw [e1, e2] at nodup
          simp at nodup
        intro p' hp'
        obtain ⟨r, rfl⟩ := hpref p' hp'
        exact ⟨r, fun h => key _ hp' (by simp [h]), rfl⟩
      refine viaDir d ?_ hb ?_ (fun p' _ => by rw [hC, hde])
      · rintro rfl
        have := congrArg List.length hde
        simp [slashed] at this
      intro d' h'
      by_cases h0 : d' = []
      · subst h0; exact List.nil_prefix
      have hd'n : ∀ c ∈ d', '/' ∉ c := by
        obtain ⟨r, _, e⟩ := h' p (by simp)
        exact fun c hc => nosl p (by simp) c (by rw [e]; simp [hc])
      have h3 : slashed d' <+: C := (hpre _).2 (fun p' hp' => by
        obtain ⟨r, _, e⟩ := h' p' hp'
        exact (slashed_prefix_iff d' p' hd'n (nosl p' hp')).2 ⟨r, e.symm⟩)
      obtain ⟨x, hx⟩ := slashed_ends d' h0
      rw [hx] at h3
      have := c2 x h3
      rw [← hx, hde] at this
      exact (slashed_prefix_iff d' d hd'n hdn).1 this
    · have hcut : cutLastSlash C = C := by unfold cutLastSlash; rw [if_neg hs]
      refine viaText C hs ?_ ?_ ?_ (fun p' _ => by rw [hC, hcut])
      · intro c r hm
        exact (noslash_prefix hs).1 ((hpre C).1 List.prefix_rfl _ hm)
      · intro x' hx' h'
        refine (hpre x').2 (fun p' hp' => ?_)
        cases p' with
        | nil => exact absurd rfl (names _ hp').1
        | cons c r => exact (noslash_prefix hx').2 (h' c r hp')
      · by_contra hno
        apply hs
        have : C ++ ['/'] <+: C := (hpre _).2 (fun p' hp' => by
          cases p' with
          | nil => exact absurd rfl (names _ hp').1
          | cons c r =>
            refine (noslash_dir_prefix hs (nosl _ hp' c (by simp))).2 ?_
            by_contra hne'
            exact hno ⟨c, r, hp', fun e => hne' e.symm⟩)
        have := this.length_le
        simp at this
        omega

theorem RelEntries.path {ys : List YamlFile} {ps : List (List Str)} (h : RelEntries ys ps) {y : YamlFile} (hy : y ∈ ys)
    (hp : y.path ≠ ['-']) : ∃ p ∈ ps, y.path = relPath p := by
  have : y.path ∈ (ys.map (·.path)).filter (· ≠ ['-']) := by
    rw [List.mem_filter]
    exact ⟨List.mem_map_of_mem hy, by simpa using hp⟩
  rw [h.paths] at this
  obtain ⟨p, hp, e⟩ := List.mem_map.1 this
  exact ⟨p, hp, e.symm⟩

theorem Cut.left {ps : List (List Str)} {cut : List Str → List Str} (h : Cut ps cut)
    (names : ∀ p ∈ ps, p ≠ [] ∧ ∀ c ∈ p, IsName c) : ∀ p ∈ ps, cut p ≠ [] ∧ ∀ c ∈ cut p, IsName c := by
  intro p hp
  obtain ⟨h0, hn⟩ := names p hp
  cases h with
  | directory d _ hb _ hc =>
    obtain ⟨r, hr, rfl⟩ := hb p hp
    rw [hc r hr]
    exact ⟨hr, fun c h => hn c (by simp [h])⟩
  | none x _ _ _ h1 h2 h3 =>
    cases p with
    | nil => exact absurd rfl h0
    | cons c r =>
      by_cases hx : c = x
      · subst hx
        by_cases hr : r = []
        · subst hr; rw [h2]; exact ⟨h0, hn⟩
        · rw [h1 r hr]; exact ⟨hr, fun c h => hn c (by simp [h])⟩
      · rw [h3 c r hx]; exact ⟨h0, hn⟩

theorem rel_output {ys : List YamlFile} {ps : List (List Str)} (h : RelEntries ys ps) :
    ∃ cut, (ps ≠ [] → Cut ps cut) ∧ ∀ i y z, At ys i y z → y.outputPath = [] → y.path ≠ ['-'] →
      ∃ p ∈ ps, y.path = relPath p ∧ z.outputPath = relPath (cut p) ∧ cut p ≠ [] ∧ ∀ c ∈ cut p, IsName c := by
  by_cases h0 : ps = []
  · subst h0
    refine ⟨id, fun h => absurd rfl h, ?_⟩
    intro i y z ha _ hp
    obtain ⟨p, hp, _⟩ := h.path ha.output.1 hp
    cases hp
  · obtain ⟨cut, h1, h2⟩ := rel_cut h0 h.names h.files h.nodup
    refine ⟨cut, fun _ => h1, ?_⟩
    intro i y z ha ho hp
    obtain ⟨hy, _, hz⟩ := ha.output
    obtain ⟨p, hpm, he⟩ := h.path hy hp
    refine ⟨p, hpm, he, ?_, h1.left h.names p hpm⟩
    rw [hz, h.paths, outputPathFor, if_pos ho, he, h2 p hpm]

/-- **C37** for relative inputs, exactly: two entries for different files, neither with an outputPath, are
written to the same file if and only if one of them is the other below a directory `x`, where every input's
path begins with the text `x` but the other is not itself below `x`.  (So never if all inputs are in one
directory.) -/
theorem C37_relative_exactly (ys : List YamlFile) (ps : List (List Str)) (h : RelEntries ys ps)
    (cwd : List Str) (hw : ∀ c ∈ cwd, IsName c) (outDir : Str) (i j : Nat) (y z y' z' : YamlFile)
    (hi : At ys i y z) (hj : At ys j y' z') (ho : y.outputPath = []) (ho' : y'.outputPath = [])
    (p q : List Str) (hp : p ∈ ps) (hq : q ∈ ps) (hyp : y.path = relPath p) (hyq : y'.path = relPath q) (hne : p ≠ q) :
    locate cwd (outputName outDir z) = locate cwd (outputName outDir z') ↔
      ∃ x, (∀ r ∈ ps, x <+: relPath r) ∧ ((p = x :: q ∧ q.head? ≠ some x) ∨ (q = x :: p ∧ p.head? ≠ some x)) := by
  have nd : ∀ r ∈ ps, relPath r ≠ ['-'] := by
    intro r hr e
    have : ['-'] ∈ (ys.map (·.path)).filter (· ≠ ['-']) := by rw [h.paths, ← e]; exact List.mem_map_of_mem hr
    simp at this
  obtain ⟨cut, hcut, hout⟩ := rel_output h
  have hcut := hcut (by rintro rfl; cases hp)
  obtain ⟨p1, m1, e1, z1, r1, n1⟩ := hout i y z hi ho (by rw [hyp]; exact nd p hp)
  obtain ⟨q1, m2, e2, z2, r2, n2⟩ := hout j y' z' hj ho' (by rw [hyq]; exact nd q hq)
  obtain rfl : p1 = p := absPath_injective (h.names _ m1).2 (h.names _ hp).2 (by unfold absPath; rw [← e1, hyp])
  obtain rfl : q1 = q := absPath_injective (h.names _ m2).2 (h.names _ hq).2 (by unfold absPath; rw [← e2, hyq])
  have hloc : locate cwd (outputName outDir z) = locate cwd (outputName outDir z') ↔ cut p1 = cut q1 := by
    rw [outputName_relPath outDir z r1 n1 z1, outputName_relPath outDir z' r2 n2 z2]
    obtain ⟨o, o1, o2, o3⟩ := locate_under cwd hw outDir _ r1 n1
    obtain ⟨o', o1', o2', o3'⟩ := locate_under cwd hw outDir _ r2 n2
    rw [o3, o3']
    obtain rfl : o = o' := absPath_injective o1 o1' (by rw [← o2, o2'])
    constructor
    · intro e
      exact List.append_cancel_left (absPath_injective
        (by intro c hc; rcases List.mem_append.1 hc with hc | hc; exacts [o1 c hc, n1 c hc])
        (by intro c hc; rcases List.mem_append.1 hc with hc | hc; exacts [o1 c hc, n2 c hc]) e)
    · intro e; rw [e]
  rw [hloc]
  have nosl : ∀ r ∈ ps, ∀ c ∈ r, '/' ∉ c := fun r hr => names_noslash (h.names r hr).2
  have first : ∀ (x : Str) (c : Str) (r : List Str), '/' ∉ x → (x <+: relPath (c :: r) ↔ x <+: c) := by
    intro x c r hx
    constructor
    · intro hpre
      refine (noslash_prefix (p := r) hx).1 (hpre.trans ?_)
      unfold slashed
      rw [← relPath_slash (c :: r) (by simp)]
      exact List.prefix_append _ _
    · intro hpre
      refine hpre.trans ?_
      cases r with
      | nil => exact List.prefix_rfl
      | cons a r => exact List.prefix_append _ _
  have ne : ∀ r ∈ ps, ∃ c r', r = c :: r' := by
    intro r hr
    cases r with
    | nil => exact absurd rfl (h.names _ hr).1
    | cons c r' => exact ⟨c, r', rfl⟩
  -- one direction of each half
  have half1 : ∀ p ∈ ps, ∀ q ∈ ps, p ≠ q → cut p ≠ p → cut p = cut q → ∃ x, (∀ r ∈ ps, x <+: relPath r) ∧
      p = x :: q ∧ q.head? ≠ some x := by
    intro p hp q hq hne hcp e
    cases hcut with
    | directory d _ hb _ hc =>
      obtain ⟨r, hr, rfl⟩ := hb p hp
      obtain ⟨r', hr', rfl⟩ := hb q hq
      rw [hc r hr, hc r' hr'] at e
      rw [e] at hne
      exact absurd rfl hne
    | none x hx _ _ h1 h2 h3 =>
      obtain ⟨c, r, rfl⟩ := ne p hp
      obtain ⟨c', r', rfl⟩ := ne q hq
      have hcx : c = x := by
        by_contra hc
        exact hcp (h3 c r hc)
      subst hcx
      have hr : r ≠ [] := by
        rintro rfl
        exact hcp h2
      rw [h1 r hr] at e
      have nc : '/' ∉ c := nosl _ hp c (by simp)
      have hq' : ¬ (c' = c ∧ r' ≠ []) := by
        rintro ⟨rfl, hr'⟩
        rw [h1 r' hr'] at e
        rw [e] at hne
        exact hne rfl
      have hcq : cut (c' :: r') = c' :: r' := by
        by_cases hc : c' = c
        · subst hc
          have : r' = [] := by
            by_contra hr'
            exact hq' ⟨rfl, hr'⟩
          subst this
          exact h2
        · exact h3 c' r' hc
      rw [hcq] at e
      refine ⟨c, ?_, by rw [e], ?_⟩
      · intro s hs
        obtain ⟨a, s', rfl⟩ := ne s hs
        exact (first c a s' nc).2 (hx a s' hs)
      · simp only [List.head?_cons, ne_eq, Option.some.injEq]
        rintro rfl
        have : r' = [] := by
          by_contra hr'
          exact hq' ⟨rfl, hr'⟩
        subst this
        exact h.files _ hq _ hp ⟨r, hr, rfl⟩
  have half2 : ∀ p ∈ ps, ∀ q ∈ ps, ∀ x, (∀ r ∈ ps, x <+: relPath r) → p = x :: q → q.head? ≠ some x → cut p = cut q := by
    intro p hp q hq x hx e hh
    have nx : '/' ∉ x := nosl p hp x (by rw [e]; simp)
    cases hcut with
    | directory d hd hb _ hc =>
      exfalso
      cases d with
      | nil =>
        have hl := hd rfl
        match ps, hl with
        | [s], _ =>
          simp only [List.mem_singleton] at hp hq
          rw [hp, hq] at e
          have := congrArg List.length e
          simp at this
        | [], _ => cases hp
      | cons c d =>
        obtain ⟨r, _, e1⟩ := hb p hp
        obtain ⟨r', _, e2⟩ := hb q hq
        rw [e] at e1
        simp only [List.cons_append, List.cons.injEq] at e1
        rw [e2] at hh
        simp [e1.1] at hh
    | none x0 h0 hmax _ h1 h2 h3 =>
      subst e
      have e1 : x0 <+: x := h0 x q hp
      have e2 : x <+: x0 := hmax x nx (fun c r hm => (first x c r nx).1 (hx _ hm))
      obtain rfl : x = x0 := e2.eq_of_length (Nat.le_antisymm e2.length_le e1.length_le)
      obtain ⟨c', r', rfl⟩ := ne q hq
      rw [h1 _ (by simp), h3 c' r' (by simpa using hh)]
  constructor
  · intro e
    by_cases c1 : cut p1 = p1
    · by_cases c2 : cut q1 = q1
      · exact absurd (c1.symm.trans (e.trans c2)) hne
      · obtain ⟨x, a, b, c⟩ := half1 q1 hq p1 hp (fun e => hne e.symm) c2 e.symm
        exact ⟨x, a, .inr ⟨b, c⟩⟩
    · obtain ⟨x, a, b, c⟩ := half1 p1 hp q1 hq hne c1 e
      exact ⟨x, a, .inl ⟨b, c⟩⟩
  · rintro ⟨x, hx, ⟨e, hh⟩ | ⟨e, hh⟩⟩
    · exact half2 _ hp _ hq x hx e hh
    · exact (half2 _ hq _ hp x hx e hh).symm

/-- **C38** for relative inputs: without an outputPath, the file written is below the output directory, wherever
the process works. -/
theorem C38_inside_relative (ys : List YamlFile) (ps : List (List Str)) (h : RelEntries ys ps)
    (cwd : List Str) (hw : ∀ c ∈ cwd, IsName c) (outDir : Str) (i : Nat) (y z : YamlFile) (hi : At ys i y z)
    (ho : y.outputPath = []) (hp : y.path ≠ ['-']) :
    ∃ o r, locate cwd outDir = absPath o ∧ locate cwd (outputName outDir z) = absPath (o ++ r) ∧ r ≠ [] ∧
      ∃ p ∈ ps, y.path = relPath p ∧ r <:+ p := by
  obtain ⟨cut, hcut, hout⟩ := rel_output h
  obtain ⟨p, m, e, z1, r1, n1⟩ := hout i y z hi ho hp
  obtain ⟨o, o1, o2, o3⟩ := locate_under cwd hw outDir _ r1 n1
  refine ⟨o, cut p, o2, ?_, r1, p, m, e, ?_⟩
  · rw [outputName_relPath outDir z r1 n1 z1, o3]
  · cases hcut (by rintro rfl; cases m) with
    | directory d _ hb _ hc =>
      obtain ⟨r, hr, rfl⟩ := hb p m
      rw [hc r hr]
      exact ⟨d, rfl⟩
    | none x _ _ _ h1 h2 h3 =>
      cases p with
      | nil => exact absurd rfl (h.names _ m).1
      | cons c r =>
        by_cases hx : c = x
        · subst hx
          by_cases hr : r = []
          · subst hr; rw [h2]; exact List.suffix_rfl
          · rw [h1 r hr]; exact ⟨[c], rfl⟩
        · rw [h3 c r hx]; exact List.suffix_rfl

/-- **C40** for relative inputs that are all in some directory: without an outputPath, a file is written at its
place below the deepest such directory, in the output directory. -/
theorem C40_default_relative (ys : List YamlFile) (ps : List (List Str)) (h : RelEntries ys ps)
    (d : List Str) (h0 : d ≠ []) (hb : ∀ p ∈ ps, Below d p) (hmax : ∀ d', (∀ p ∈ ps, Below d' p) → d' <+: d)
    (cwd : List Str) (hw : ∀ c ∈ cwd, IsName c) (outDir : Str) (i : Nat) (y z : YamlFile) (hi : At ys i y z)
    (ho : y.outputPath = []) (r : List Str) (hr : d ++ r ∈ ps) (hy : y.path = relPath (d ++ r)) :
    ∃ o, locate cwd outDir = absPath o ∧ locate cwd (outputName outDir z) = absPath (o ++ r) := by
  have nd : relPath (d ++ r) ≠ ['-'] := by
    intro e
    have : ['-'] ∈ (ys.map (·.path)).filter (· ≠ ['-']) := by rw [h.paths, ← e]; exact List.mem_map_of_mem hr
    simp at this
  obtain ⟨cut, hcut, hout⟩ := rel_output h
  obtain ⟨p, m, e, z1, r1, n1⟩ := hout i y z hi ho (by rw [hy]; exact nd)
  obtain rfl : p = d ++ r := absPath_injective (h.names _ m).2 (h.names _ hr).2 (by unfold absPath; rw [← e, hy])
  have hc : cut (d ++ r) = r := by
    cases hcut (by rintro rfl; cases m) with
    | directory d0 _ hb0 hmax0 hc =>
      have e1 := hmax d0 hb0
      have e2 := hmax0 d hb
      obtain rfl : d = d0 := e2.eq_of_length (Nat.le_antisymm e2.length_le e1.length_le)
      obtain ⟨r', hr', er⟩ := hb _ m
      rw [List.append_cancel_left er]
      exact hc r' hr'
    | none x hx hxm hs _ _ _ =>
      exfalso
      cases d with
      | nil => exact h0 rfl
      | cons c d =>
        have heads : ∀ a s, a :: s ∈ ps → a = c := by
          intro a s hm
          obtain ⟨t, _, et⟩ := hb _ hm
          simp only [List.cons_append, List.cons.injEq] at et
          exact et.1
        have e1 : x <+: c := hx c _ m
        have e2 : c <+: x := hxm c (names_noslash (h.names _ m).2 c (List.mem_cons_self)) (fun a s hm => heads a s hm ▸ List.prefix_rfl)
        obtain rfl : c = x := e2.eq_of_length (Nat.le_antisymm e2.length_le e1.length_le)
        obtain ⟨a, s, hm, hne⟩ := hs
        exact hne (heads a s hm)
  rw [hc] at r1 n1 z1
  obtain ⟨o, o1, o2, o3⟩ := locate_under cwd hw outDir _ r1 n1
  exact ⟨o, o2, by rw [outputName_relPath outDir z r1 n1 z1, o3]⟩

/-! ### The hypotheses are met -/

namespace Ex

/-- A working directory with `a/ab.yaml`, `a/x.yaml` and `ab.yaml`. -/
def relFs : Fs := fun p =>
  if p = c!"." then some (.dir [(c!"a", .dir [(c!"ab.yaml", .file), (c!"x.yaml", .file)]), (c!"ab.yaml", .file)])
  else if p = c!"a/ab.yaml" ∨ p = c!"a/x.yaml" ∨ p = c!"ab.yaml" then some .file else none

/-- Its files. -/
def relPaths : List (List Str) := [[c!"a", c!"ab.yaml"], [c!"a", c!"x.yaml"], [c!"ab.yaml"]]

/-- The entries made from them. -/
def relEntries : List YamlFile := [{ path := c!"a/ab.yaml" }, { path := c!"a/x.yaml" }, { path := c!"ab.yaml" }]

end Ex

/-- `yot -p .` lists these files. -/
example : (match expandLoop Ex.relFs [] 10 [] [({ path := c!"." } : YamlFile)] with
    | .done l => l.map (·.path)
    | _ => []) = Ex.relEntries.map (·.path) := by decide

theorem Ex.relEntries_are : RelEntries Ex.relEntries Ex.relPaths where
  paths := by decide
  names := by decide
  nodup := by decide
  files := by
    rintro p hp q hq ⟨r, hr, e⟩
    have h1 : p = q.take p.length := by rw [e]; simp
    have h2 : p.length < q.length := by
      have := List.length_pos_of_ne_nil hr
      rw [e, List.length_append]; omega
    have : ∀ p ∈ Ex.relPaths, ∀ q ∈ Ex.relPaths, ¬ (p = q.take p.length ∧ p.length < q.length) := by decide
    exact this p hp q hq ⟨h1, h2⟩

/-- Two of them are written to the same file, as `C37_relative_exactly` says; `a/x.yaml` is not disturbed. -/
example : (setOutputPaths Ex.relEntries).map (outputName c!"./output") =
    [c!"output/ab.yaml", c!"output/x.yaml", c!"output/ab.yaml"] := by decide

example : (∀ r ∈ Ex.relPaths, c!"a" <+: relPath r) ∧ [c!"a", c!"ab.yaml"] = c!"a" :: [c!"ab.yaml"] ∧
    [c!"ab.yaml"].head? ≠ some c!"a" := by decide

end Yot
