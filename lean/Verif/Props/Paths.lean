import Verif.Model.Instructions
import Verif.Lemmas.GoPath
/-
C37-C40: output paths.
-/
namespace Yot
open Spec

/-! ### Common prefixes of texts -/

theorem lcp_prefix_iff (x s t : Str) : x <+: lcp s t ↔ x <+: s ∧ x <+: t := by
  induction s generalizing x t with
  | nil =>
    have : lcp [] t = [] := by unfold lcp; rfl
    rw [this]
    constructor
    · intro h
      have := List.prefix_nil.1 h
      subst this
      exact ⟨List.nil_prefix, List.nil_prefix⟩
    · exact fun h => h.1
  | cons a s ih =>
    cases t with
    | nil =>
      have : lcp (a :: s) [] = [] := by unfold lcp; rfl
      rw [this]
      constructor
      · intro h
        have := List.prefix_nil.1 h
        subst this
        exact ⟨List.nil_prefix, List.nil_prefix⟩
      · exact fun h => h.2
    | cons b t =>
      rw [lcp]
      cases x with
      | nil => exact ⟨fun _ => ⟨List.nil_prefix, List.nil_prefix⟩, fun _ => List.nil_prefix⟩
      | cons c x =>
        split
        · rename_i hab
          subst hab
          rw [List.cons_prefix_cons, List.cons_prefix_cons, List.cons_prefix_cons, ih]
          tauto
        · rename_i hab
          rw [List.cons_prefix_cons, List.cons_prefix_cons]
          constructor
          · intro h; cases List.prefix_nil.1 h
          · rintro ⟨⟨rfl, _⟩, ⟨rfl, _⟩⟩; exact absurd rfl hab

theorem foldl_lcp (x : Str) (vs : List Str) : ∀ c, x <+: vs.foldl lcp c ↔ x <+: c ∧ ∀ v ∈ vs, x <+: v := by
  induction vs with
  | nil => intro c; simp
  | cons v vs ih =>
    intro c
    rw [List.foldl_cons, ih, lcp_prefix_iff]
    simp only [List.mem_cons, forall_eq_or_imp]
    tauto

theorem mem_takeWhile_prop {α : Type} {p : α → Bool} {l : List α} {x : α} (h : x ∈ l.takeWhile p) : p x = true := by
  induction l with
  | nil => cases h
  | cons a l ih =>
    rw [List.takeWhile_cons] at h
    split at h
    · rename_i ha
      rcases List.mem_cons.1 h with rfl | h
      · exact ha
      · exact ih h
    · cases h

/-- The part of a text up to its last slash. -/
theorem cutLastSlash_spec (c : Str) (h : '/' ∈ c) :
    cutLastSlash c ++ ['/'] <+: c ∧ ∀ x, x ++ ['/'] <+: c → x ++ ['/'] <+: cutLastSlash c ++ ['/'] := by
  have hsplit : ∃ a b, c = a ++ '/' :: b ∧ '/' ∉ b ∧ cutLastSlash c = a := by
    have h1 := List.takeWhile_append_dropWhile (p := (· ≠ '/')) (l := c.reverse)
    cases hd : c.reverse.dropWhile (· ≠ '/') with
    | nil =>
      rw [hd, List.append_nil] at h1
      have hm : '/' ∈ c.reverse.takeWhile (· ≠ '/') := by rw [h1]; simpa using h
      have := mem_takeWhile_prop hm
      simp at this
    | cons y ys =>
      have hy : y = '/' := by
        have := List.head?_dropWhile_not (fun x => decide (x ≠ '/')) c.reverse
        rw [hd] at this
        simpa using this
      subst hy
      refine ⟨ys.reverse, (c.reverse.takeWhile (· ≠ '/')).reverse, ?_, ?_, ?_⟩
      · rw [hd] at h1
        have := congrArg List.reverse h1
        simp only [List.reverse_append, List.reverse_reverse, List.reverse_cons] at this
        conv => lhs; rw [← this]
        simp
      · intro hm
        rw [List.mem_reverse] at hm
        have := mem_takeWhile_prop hm
        simp at this
      · unfold cutLastSlash
        rw [if_pos h, hd]; rfl
  obtain ⟨a, b, rfl, hb, hc⟩ := hsplit
  rw [hc]
  refine ⟨⟨b, by simp⟩, ?_⟩
  intro x hx
  have h2 : a ++ ['/'] <+: a ++ '/' :: b := ⟨b, by simp⟩
  rcases List.prefix_or_prefix_of_prefix hx h2 with h | h
  · exact h
  · obtain ⟨t, ht⟩ := h
    obtain ⟨u, hu⟩ := hx
    cases t with
    | nil => rw [List.append_nil] at ht; rw [ht]; exact List.prefix_rfl
    | cons y ys =>
      exfalso
      rw [← ht] at hu
      simp only [List.append_assoc, List.cons_append, List.nil_append, List.append_cancel_left_eq, List.cons.injEq,
        true_and] at hu
      have hlast : '/' ∈ (y :: ys) := by
        have e := congrArg (fun l => l.getLast?) ht
        simp only [List.getLast?_append, List.getLast?_cons, Option.some_or] at e
        have : (y :: ys).getLast? = some '/' := by
          rw [List.getLast?_cons]
          simpa using e
        exact List.mem_of_getLast? this
      apply hb
      rw [← hu, ← List.cons_append]
      exact List.mem_append_left _ hlast

/-! ### Directory prefixes -/

theorem dirText_append (ds r : List Str) : dirText (ds ++ r) = dirText ds ++ r.flatMap (fun c => c ++ ['/']) := by
  simp [dirText]

theorem relPath_slash (cs : List Str) (hne : cs ≠ []) : relPath cs ++ ['/'] = cs.flatMap (fun c => c ++ ['/']) := by
  induction cs with
  | nil => exact absurd rfl hne
  | cons c cs ih =>
    cases cs with
    | nil => simp [relPath]
    | cons d ds =>
      rw [relPath, List.flatMap_cons, ← ih (by simp)]
      simp

theorem absPath_slash (cs : List Str) (hne : cs ≠ []) : absPath cs ++ ['/'] = dirText cs := by
  unfold absPath dirText
  rw [List.cons_append, relPath_slash cs hne]

/-- A prefix of a path that ends with a slash is one of its directories. -/
theorem prefix_dirText (x : Str) (cs : List Str) (hc : ∀ c ∈ cs, '/' ∉ c) (h : x ++ ['/'] <+: dirText cs) :
    ∃ ds, ds <+: cs ∧ x ++ ['/'] = dirText ds := by
  have key : ∀ (cs : List Str), (∀ c ∈ cs, '/' ∉ c) → ∀ y : Str, y ++ ['/'] <+: cs.flatMap (fun c => c ++ ['/']) →
      ∃ ds, ds <+: cs ∧ y ++ ['/'] = ds.flatMap (fun c => c ++ ['/']) := by
    intro cs
    induction cs with
    | nil => intro _ y h; simp at h
    | cons c cs ih =>
      intro hc y h
      rw [List.flatMap_cons] at h
      have hp : c ++ ['/'] <+: c ++ ['/'] ++ cs.flatMap (fun c => c ++ ['/']) := List.prefix_append _ _
      have hle : c ++ ['/'] <+: y ++ ['/'] := by
        rcases List.prefix_or_prefix_of_prefix h hp with h1 | h1
        · obtain ⟨t, ht⟩ := h1
          cases t with
          | nil => rw [List.append_nil] at ht; rw [ht]; exact List.prefix_rfl
          | cons z zs =>
            exfalso
            have hm : '/' ∈ c := by
              have hdl := congrArg List.dropLast ht
              rw [List.dropLast_concat] at hdl
              rw [← hdl, List.dropLast_append_of_ne_nil (by simp)]
              simp
            exact hc c (by simp) hm
        · exact h1
      obtain ⟨t, ht⟩ := hle
      rw [← ht] at h
      rw [List.prefix_append_right_inj] at h
      by_cases h0 : t = []
      · subst h0
        exact ⟨[c], by simp, by rw [← ht]; simp⟩
      · have ⟨t', ht'⟩ : ∃ t', t = t' ++ ['/'] := by
          refine ⟨t.dropLast, ?_⟩
          have hg : t.getLast? = some '/' := by
            have := congrArg (fun l => l.getLast?) ht
            simp only [List.getLast?_append, List.getLast?_singleton] at this
            rw [List.getLast?_eq_some_getLast h0] at this ⊢
            simpa using this
          rw [List.getLast?_eq_some_getLast h0] at hg
          conv => lhs; rw [← List.dropLast_append_getLast h0]
          simp only [Option.some.injEq] at hg
          rw [hg]
        rw [ht'] at h
        obtain ⟨ds, hd1, hd2⟩ := ih (fun d hd => hc d (by simp [hd])) t' h
        exact ⟨c :: ds, by simpa using hd1, by rw [← ht, ht', hd2, List.flatMap_cons]⟩
  cases x with
  | nil =>
    exact ⟨[], List.nil_prefix, rfl⟩
  | cons a x =>
    unfold dirText at h ⊢
    rw [List.cons_append, List.cons_prefix_cons] at h
    obtain ⟨ds, h1, h2⟩ := key cs hc x h.2
    exact ⟨ds, h1, by rw [List.cons_append, h.1, h2]⟩

theorem dirText_prefix_iff (ds cs : List Str) (hd : ∀ c ∈ ds, '/' ∉ c) (hc : ∀ c ∈ cs, '/' ∉ c) :
    dirText ds <+: dirText cs ↔ ds <+: cs := by
  constructor
  · intro h
    induction ds generalizing cs with
    | nil => exact List.nil_prefix
    | cons d ds ih =>
      unfold dirText at h
      rw [List.cons_prefix_cons] at h
      cases cs with
      | nil => simp at h
      | cons c cs =>
        rw [List.flatMap_cons, List.flatMap_cons] at h
        have hdc : d = c := by
          obtain ⟨t, ht⟩ := h.2
          have : ∀ (a b u v : Str), '/' ∉ a → '/' ∉ b → a ++ '/' :: u = b ++ '/' :: v → a = b := by
            intro a
            induction a with
            | nil =>
              intro b u v _ hb e
              cases b with
              | nil => rfl
              | cons y b =>
                simp only [List.nil_append, List.cons_append, List.cons.injEq] at e
                exact absurd (by rw [e.1]; simp) hb
            | cons x a ih =>
              intro b u v ha hb e
              cases b with
              | nil =>
                simp only [List.nil_append, List.cons_append, List.cons.injEq] at e
                exact absurd (by rw [e.1]; simp) ha
              | cons y b =>
                simp only [List.cons_append, List.cons.injEq] at e
                rw [e.1, ih b u v (fun h => ha (by simp [h])) (fun h => hb (by simp [h])) e.2]
          refine this d c (ds.flatMap (fun c => c ++ ['/']) ++ t) (cs.flatMap (fun c => c ++ ['/'])) (hd d (by simp)) (hc c (by simp)) ?_
          simpa using ht
        subst hdc
        rw [List.prefix_append_right_inj] at h
        have := ih cs (fun c hc => hd c (by simp [hc])) (fun c h => hc c (by simp [h]))
          (by unfold dirText; rw [List.cons_prefix_cons]; exact ⟨rfl, h.2⟩)
        simpa using this
  · rintro ⟨r, rfl⟩
    rw [dirText_append]
    exact List.prefix_append _ _

/-! ### C39 -/

theorem commonPrefix_many (p q : List Str) (ps : List (List Str))
    (hn : ∀ p' ∈ p :: q :: ps, p' ≠ [] ∧ ∀ c ∈ p', IsName c) :
    ∃ d, getCommonPrefix ((p :: q :: ps).map absPath) = dirText d ∧ (∀ p' ∈ p :: q :: ps, d <+: p') ∧
      ∀ d', (∀ p' ∈ p :: q :: ps, d' <+: p') → d' <+: d := by
  have hcl : ∀ p' ∈ p :: q :: ps, clean (absPath p') ++ ['/'] = dirText p' := by
    intro p' h
    rw [clean_absPath _ (hn p' h).2, absPath_slash _ (hn p' h).1]
  have hfold : getCommonPrefix ((p :: q :: ps).map absPath) =
      cutLastSlash (((q :: ps).map dirText).foldl lcp (dirText p)) ++ ['/'] := by
    simp only [List.map_cons, getCommonPrefix]
    rw [hcl p (by simp)]
    congr 2
    rw [← List.map_cons (f := dirText), ← List.map_cons (f := absPath)]
    rw [List.foldl_map, List.foldl_map]
    have : ∀ (l : List (List Str)), (∀ p' ∈ l, clean (absPath p') ++ ['/'] = dirText p') → ∀ c,
        l.foldl (fun x y => lcp x (clean (absPath y) ++ ['/'])) c = l.foldl (fun x y => lcp x (dirText y)) c := by
      intro l
      induction l with
      | nil => intro _ _; rfl
      | cons a l ih =>
        intro h c
        rw [List.foldl_cons, List.foldl_cons, h a (by simp), ih (fun x hx => h x (by simp [hx]))]
    exact this _ (fun p' h => hcl p' (by simp only [List.mem_cons] at h ⊢; tauto)) _
  rw [hfold]
  generalize hC : ((q :: ps).map dirText).foldl lcp (dirText p) = C
  have hpre : ∀ x, x <+: C ↔ ∀ p' ∈ p :: q :: ps, x <+: dirText p' := by
    intro x
    rw [← hC, foldl_lcp]
    constructor
    · rintro ⟨h1, h2⟩ p' hp'
      rcases List.mem_cons.1 hp' with rfl | hp'
      · exact h1
      · exact h2 _ (List.mem_map_of_mem hp')
    · intro h
      refine ⟨h p (by simp), ?_⟩
      intro v hv
      obtain ⟨p', hp', rfl⟩ := List.mem_map.1 hv
      exact h p' (List.mem_cons_of_mem _ hp')
  have hslash : '/' ∈ C := by
    have : ['/'] <+: C := (hpre _).2 (fun p' _ => ⟨_, rfl⟩)
    exact this.subset (by simp)
  obtain ⟨c1, c2⟩ := cutLastSlash_spec C hslash
  have hc1 := (hpre _).1 c1
  have nosl : ∀ p' ∈ p :: q :: ps, ∀ c ∈ p', '/' ∉ c := fun p' h => names_noslash (hn p' h).2
  obtain ⟨d, hd, hde⟩ := prefix_dirText _ _ (nosl p (by simp)) (hc1 p (by simp))
  have hdn : ∀ c ∈ d, '/' ∉ c := fun c hc => nosl p (by simp) c (hd.subset hc)
  refine ⟨d, hde, ?_, ?_⟩
  · intro p' hp'
    have := hc1 p' hp'
    rw [hde] at this
    exact (dirText_prefix_iff d p' hdn (nosl p' hp')).1 this
  · intro d' h'
    have hd'n : ∀ c ∈ d', '/' ∉ c := fun c hc => nosl p (by simp) c ((h' p (by simp)).subset hc)
    have h3 : dirText d' <+: C := (hpre _).2 (fun p' hp' => (dirText_prefix_iff d' p' hd'n (nosl p' hp')).2 (h' p' hp'))
    have ⟨x, hx⟩ : ∃ x, dirText d' = x ++ ['/'] := by
      by_cases h0 : d' = []
      · subst h0; exact ⟨[], rfl⟩
      · exact ⟨_, (absPath_slash d' h0).symm⟩
    rw [hx] at h3
    have := c2 x h3
    rw [← hx, hde] at this
    exact (dirText_prefix_iff d' d hd'n hdn).1 this

theorem uptoSlash_concat (a b : Str) (hb : '/' ∉ b) : uptoSlash (a ++ '/' :: b) = a ++ ['/'] := by
  unfold uptoSlash
  rw [List.reverse_append, List.reverse_cons, List.append_assoc, List.dropWhile_append_of_pos]
  · simp
  · intro x hx
    have : x ∈ b := by simpa using hx
    simp only [ne_eq, decide_not, Bool.not_eq_eq_eq_not, Bool.not_true, decide_eq_false_iff_not]
    intro e; subst e; exact hb this

theorem absPath_concat (d : List Str) (b : Str) : absPath (d ++ [b]) = (if d = [] then [] else absPath d) ++ '/' :: b := by
  by_cases h0 : d = []
  · subst h0; rfl
  · rw [if_neg h0]
    unfold absPath
    rw [List.cons_append]
    congr 1
    induction d with
    | nil => exact absurd rfl h0
    | cons x xs ih =>
      cases xs with
      | nil => rfl
      | cons y ys =>
        simp only [List.cons_append, relPath] at ih ⊢
        rw [ih (by simp)]; simp

theorem commonPrefix_single (d : List Str) (b : Str) (h0 : d ≠ []) (hn : ∀ c ∈ d ++ [b], IsName c) :
    getCommonPrefix [absPath (d ++ [b])] = dirText d := by
  have hd : ∀ c ∈ d, IsName c := fun c hc => hn c (by simp [hc])
  have hb : '/' ∉ b := (hn b (by simp)).2.2.2
  simp only [getCommonPrefix, dirOf]
  rw [clean_absPath _ hn, absPath_concat, if_neg h0, uptoSlash_concat _ _ hb]
  have : clean (absPath d ++ ['/']) = absPath d := by
    have ha : isAbs (absPath d ++ ['/']) = true := rfl
    have hc := clean_absPath d hd
    rw [clean_eq] at hc ⊢
    rw [if_pos ha]
    rw [if_pos (show isAbs (absPath d) = true from rfl)] at hc
    have hst : stackOf (absPath d ++ ['/']) = stackOf (absPath d) := by
      unfold stackOf
      rw [ha, show isAbs (absPath d) = true from rfl, splitOn_append, List.foldl_append]
      simp [splitOn, cleanStep]
    rw [hst, hc]
  rw [this, absPath_slash d h0]

/-- The paths of a set of files: names below the root, none of them inside another. -/
structure FilePaths (ps : List (List Str)) : Prop where
  names : ∀ p ∈ ps, p ≠ [] ∧ ∀ c ∈ p, IsName c
  nodup : ps.Nodup
  files : ∀ p ∈ ps, ∀ q ∈ ps, ¬ Below p q
  deep : ∀ p, ps = [p] → 2 ≤ p.length

/-- **C39**: the prefix removed from the output paths is the longest directory that
contains all of the files. -/
theorem C39_common_directory_partial (ps : List (List Str)) (hne : ps ≠ []) (h : FilePaths ps) :
    ∃ d, getCommonPrefix (ps.map absPath) = dirText d ∧ (∀ p ∈ ps, Below d p) ∧
      ∀ d', (∀ p ∈ ps, Below d' p) → d' <+: d := by
  match ps, hne, h with
  | [p], _, h =>
    have hl := h.deep p rfl
    have hp : p ≠ [] := by intro e; subst e; simp at hl
    refine ⟨p.dropLast, ?_, ?_, ?_⟩
    · conv => lhs; rw [← List.dropLast_append_getLast hp]
      apply commonPrefix_single
      · intro e
        have := congrArg List.length e
        simp at this; omega
      · rw [List.dropLast_append_getLast hp]; exact (h.names p (by simp)).2
    · intro p' hp'
      simp only [List.mem_singleton] at hp'
      subst hp'
      exact ⟨[p'.getLast hp], by simp, (List.dropLast_append_getLast hp).symm⟩
    · intro d' hd'
      obtain ⟨r, hr, hp'⟩ := hd' p (by simp)
      subst hp'
      rw [List.dropLast_append_of_ne_nil hr]
      exact List.prefix_append _ _
  | p :: q :: ps, _, h =>
    obtain ⟨d, h1, h2, h3⟩ := commonPrefix_many p q ps h.names
    refine ⟨d, h1, ?_, ?_⟩
    · intro p' hp'
      obtain ⟨r, hr⟩ := h2 p' hp'
      refine ⟨r, ?_, hr.symm⟩
      intro e
      subst e
      rw [List.append_nil] at hr
      subst hr
      -- then `d` itself is a file containing all others
      have hnd := h.nodup
      have hex : ∃ q' ∈ p :: q :: ps, q' ≠ d := by
        by_cases hpd : p = d
        · refine ⟨q, by simp, ?_⟩
          intro e
          rw [List.nodup_cons] at hnd
          exact hnd.1 (by rw [hpd, ← e]; simp)
        · exact ⟨p, by simp, hpd⟩
      obtain ⟨q', hq', hne⟩ := hex
      obtain ⟨r, hr⟩ := h2 q' hq'
      refine h.files d hp' q' hq' ⟨r, ?_, hr.symm⟩
      intro e; subst e; rw [List.append_nil] at hr; exact hne hr.symm
    · intro d' hd'
      apply h3
      intro p' hp'
      obtain ⟨r, _, hr⟩ := hd' p' hp'
      exact ⟨r, hr.symm⟩

/-- Single file directly in the root directory: the prefix is `//`, no directory. -/
theorem C39_root_file (b : Str) (hb : IsName b) : getCommonPrefix [absPath [b]] = c!"//" := by
  have hn : ∀ c ∈ [b], IsName c := by simpa using hb
  have h1 : absPath [b] = [] ++ '/' :: b := absPath_concat [] b
  rw [getCommonPrefix, clean_absPath [b] hn, dirOf, h1, uptoSlash_concat _ _ hb.2.2.2]
  decide

example : FilePaths [[c!"a", c!"b", c!"x.yaml"], [c!"a", c!"b", c!"c", c!"y.yaml"], [c!"a", c!"bc", c!"z.yml"]] where
  names := by decide
  nodup := by decide
  files := by
    intro p hp q hq h
    obtain ⟨r, hr, e⟩ := h
    simp only [List.mem_cons, List.not_mem_nil, or_false] at hp hq
    rcases hp with rfl | rfl | rfl <;> rcases hq with rfl | rfl | rfl <;> simp_all
  deep := by intro p h; cases h

/-! ### Bases and extensions -/

theorem takeWhile_all {α : Type} {p : α → Bool} {l : List α} (h : ∀ x ∈ l, p x = true) : l.takeWhile p = l := by
  induction l with
  | nil => rfl
  | cons a l ih => rw [List.takeWhile_cons, if_pos (h a (by simp)), ih (fun x hx => h x (by simp [hx]))]

theorem afterSlash_concat (a b : Str) (hb : '/' ∉ b) : afterSlash (a ++ '/' :: b) = b := by
  unfold afterSlash
  rw [List.reverse_append, List.reverse_cons, List.append_assoc, List.takeWhile_append_of_pos]
  · simp
  · intro x hx
    have : x ∈ b := by simpa using hx
    simp only [ne_eq, decide_not, Bool.not_eq_eq_eq_not, Bool.not_true, decide_eq_false_iff_not]
    intro e; subst e; exact hb this

theorem baseOf_absPath (d : List Str) (b : Str) (hb : IsName b) : baseOf (absPath (d ++ [b])) = b := by
  rw [absPath_concat]
  generalize (if d = [] then [] else absPath d) = a
  unfold baseOf
  rw [if_neg (by simp)]
  have hlast : ((a ++ '/' :: b).reverse.dropWhile (· = '/')) = (a ++ '/' :: b).reverse := by
    have hbr : b.reverse ≠ [] := by simpa using hb.1
    rw [List.reverse_append, List.reverse_cons, List.append_assoc]
    cases hr : b.reverse with
    | nil => exact absurd hr hbr
    | cons x xs =>
      rw [List.cons_append, List.dropWhile_cons_of_neg]
      have : x ∈ b := by rw [← List.mem_reverse, hr]; simp
      simp only [decide_eq_true_eq]
      intro e; subst e; exact hb.2.2.2 this
  simp only [hlast, List.reverse_reverse]
  rw [if_neg (by simp), afterSlash_concat _ _ hb.2.2.2]

theorem extOf_iff (s : Str) : extOf s = [] ↔ ¬ HasExt s := by
  unfold extOf
  simp only
  generalize he : s.reverse.takeWhile (· ≠ '/') = e
  have hsl : ∀ x ∈ e, x ≠ '/' := by
    intro x hx
    rw [← he] at hx
    have := mem_takeWhile_prop hx
    simpa using this
  have hlen : (e.takeWhile (· ≠ '.')).length = e.length ↔ '.' ∉ e := by
    constructor
    · intro h hm
      have hp := List.takeWhile_prefix (p := fun x => decide (x ≠ '.')) (l := e)
      have := hp.eq_of_length h
      rw [← this] at hm
      have := mem_takeWhile_prop hm
      simp at this
    · intro h
      rw [takeWhile_all]
      intro x hx
      simp only [ne_eq, decide_not, Bool.not_eq_eq_eq_not, Bool.not_true, decide_eq_false_iff_not]
      intro e'; subst e'; exact h hx
  have hext : HasExt s ↔ '.' ∈ e := by
    constructor
    · rintro ⟨a, b, rfl, hb⟩
      rw [← he, List.reverse_append, List.reverse_cons, List.append_assoc, List.takeWhile_append_of_pos]
      · rw [List.singleton_append, List.takeWhile_cons_of_pos (by decide)]; simp
      · intro x hx
        have : x ∈ b := by simpa using hx
        simp only [ne_eq, decide_not, Bool.not_eq_eq_eq_not, Bool.not_true, decide_eq_false_iff_not]
        intro e'; subst e'; exact hb this
    · intro hm
      obtain ⟨u, v, rfl⟩ := List.append_of_mem hm
      have h1 := List.takeWhile_append_dropWhile (p := (fun x => decide (x ≠ '/'))) (l := s.reverse)
      rw [he] at h1
      have h2 := congrArg List.reverse h1
      simp only [List.reverse_reverse, List.reverse_append, List.reverse_cons, List.append_assoc] at h2
      refine ⟨(s.reverse.dropWhile (fun x => decide (x ≠ '/'))).reverse ++ v.reverse, u.reverse, ?_, ?_⟩
      · conv => lhs; rw [← h2]
        simp
      · intro hu
        exact hsl '/' (by simp only [List.mem_append]; left; simpa using hu) rfl
  rw [hext]
  split
  · rename_i h; exact ⟨fun _ => hlen.1 h, fun _ => rfl⟩
  · rename_i h
    constructor
    · intro h'; cases h'
    · intro h'; exact absurd (hlen.2 h') h

/-! ### The output path of one file -/

theorem trimPrefix_append (a b : Str) : trimPrefix a (a ++ b) = b := by
  unfold trimPrefix hasPrefix
  rw [if_pos (by simp)]
  simp

theorem absPath_split (d r : List Str) (hr : r ≠ []) : absPath (d ++ r) = dirText d ++ relPath r := by
  induction d with
  | nil => rfl
  | cons c d ih =>
    unfold absPath dirText at ih ⊢
    simp only [List.cons_append, List.cons.injEq, true_and, List.flatMap_cons] at ih ⊢
    cases hd : d ++ r with
    | nil => simp at hd; exact absurd hd.2 hr
    | cons x xs =>
      rw [relPath]
      rw [hd] at ih
      rw [ih]; simp

/-- The entries as `GetInstructions` has them before `setOutputPath`: the paths of
files, and possibly `-`. -/
structure Entries (ys : List YamlFile) (ps : List (List Str)) : Prop where
  paths : (ys.map (·.path)).filter (· ≠ ['-']) = ps.map absPath
  files : FilePaths ps

theorem Entries.path {ys : List YamlFile} {ps : List (List Str)} (h : Entries ys ps) {y : YamlFile} (hy : y ∈ ys)
    (hp : y.path ≠ ['-']) : ∃ p ∈ ps, y.path = absPath p := by
  have : y.path ∈ (ys.map (·.path)).filter (· ≠ ['-']) := by
    rw [List.mem_filter]
    exact ⟨List.mem_map_of_mem hy, by simpa using hp⟩
  rw [h.paths] at this
  obtain ⟨p, hp, e⟩ := List.mem_map.1 this
  exact ⟨p, hp, e.symm⟩

/-- The `i`-th entry before and after `setOutputPath`. -/
structure At (ys : List YamlFile) (i : Nat) (y z : YamlFile) : Prop where
  before : ys[i]? = some y
  after : (setOutputPaths ys)[i]? = some z

theorem At.output {ys : List YamlFile} {i : Nat} {y z : YamlFile} (h : At ys i y z) :
    y ∈ ys ∧ z.path = y.path ∧
    z.outputPath = outputPathFor (getCommonPrefix ((ys.map (·.path)).filter (· ≠ ['-']))) y := by
  have ha := h.after
  unfold setOutputPaths at ha
  simp only [List.getElem?_map, h.before, Option.map_some, Option.some.injEq] at ha
  subst ha
  exact ⟨List.mem_of_getElem? h.before, rfl, rfl⟩

theorem default_output {ys : List YamlFile} {ps : List (List Str)} (h : Entries ys ps) :
    ∃ d : List Str, (∀ p ∈ ps, Below d p) ∧ (∀ d', (∀ p ∈ ps, Below d' p) → ps ≠ [] → d' <+: d) ∧
    ∀ i y z, At ys i y z → y.outputPath = [] → y.path ≠ ['-'] →
      ∃ r, r ≠ [] ∧ (∀ c ∈ r, IsName c) ∧ d ++ r ∈ ps ∧ y.path = absPath (d ++ r) ∧ z.outputPath = relPath r := by
  by_cases h0 : ps = []
  · subst h0
    refine ⟨[], by simp, fun d' _ h => absurd rfl h, ?_⟩
    intro i y z ha _ hp
    obtain ⟨p, hp, _⟩ := h.path ha.output.1 hp
    cases hp
  · obtain ⟨d, h1, h2, h3⟩ := C39_common_directory_partial ps h0 h.files
    refine ⟨d, h2, fun d' h' _ => h3 d' h', ?_⟩
    intro i y z ha ho hp
    obtain ⟨hy, _, hz⟩ := ha.output
    obtain ⟨p, hpm, he⟩ := h.path hy hp
    obtain ⟨r, hr, rfl⟩ := h2 p hpm
    refine ⟨r, hr, fun c hc => (h.files.names _ hpm).2 c (by simp [hc]), hpm, he, ?_⟩
    rw [hz, h.paths, h1]
    unfold outputPathFor
    rw [if_pos ho, he, absPath_split d r hr, trimPrefix_append]

theorem isAbs_relPath {r : List Str} (hne : r ≠ []) (h : ∀ c ∈ r, IsName c) : isAbs (relPath r) = false := by
  have := isAbs_joinWith (rooted := true) (st := r.reverse) (normal_of_names (fun c hc => h c (by simpa using hc))) (by simpa using hne)
  rw [List.reverse_reverse, ← relPath_eq] at this
  exact this

theorem outputName_relPath (outDir : Str) (z : YamlFile) {r : List Str} (hne : r ≠ []) (h : ∀ c ∈ r, IsName c)
    (hz : z.outputPath = relPath r) : outputName outDir z = under (clean outDir) (relPath r) := by
  unfold outputName
  rw [hz, if_neg (by rw [isAbs_relPath hne h]; simp), pathJoin_under outDir r hne h]

theorem absPath_injective {p q : List Str} (hp : ∀ c ∈ p, IsName c) (hq : ∀ c ∈ q, IsName c) (h : absPath p = absPath q) :
    p = q := by
  have := congrArg (fun s => (splitOn '/' s).foldl (cleanStep true) []) h
  simp only [splitOn_absPath p hp, splitOn_absPath q hq] at this
  simpa using this

/-! ### C37 -/

/-- **C37** (partial): two entries for different files, neither with an outputPath,
are written to different places, whatever the output directory and the working
directory.  Missing: relative or unclean input paths, see `C37_relative_collision`. -/
theorem C37_distinct_outputs_partial (ys : List YamlFile) (ps : List (List Str)) (h : Entries ys ps)
    (cwd : List Str) (hw : ∀ c ∈ cwd, IsName c) (outDir : Str) (i j : Nat) (y z y' z' : YamlFile)
    (hi : At ys i y z) (hj : At ys j y' z') (ho : y.outputPath = []) (ho' : y'.outputPath = [])
    (hp : y.path ≠ ['-']) (hp' : y'.path ≠ ['-']) (hne : y.path ≠ y'.path) :
    locate cwd (outputName outDir z) ≠ locate cwd (outputName outDir z') := by
  obtain ⟨d, _, _, hd⟩ := default_output h
  obtain ⟨r, r1, r2, _, r3, r4⟩ := hd i y z hi ho hp
  obtain ⟨s, s1, s2, _, s3, s4⟩ := hd j y' z' hj ho' hp'
  rw [outputName_relPath outDir z r1 r2 r4, outputName_relPath outDir z' s1 s2 s4]
  obtain ⟨o, o1, o2, o3⟩ := locate_under cwd hw outDir r r1 r2
  obtain ⟨o', o1', o2', o3'⟩ := locate_under cwd hw outDir s s1 s2
  rw [o3, o3']
  have : o = o' := absPath_injective o1 o1' (by rw [← o2, o2'])
  subst this
  intro e
  have := absPath_injective (p := o ++ r) (q := o ++ s)
    (by intro c hc; rcases List.mem_append.1 hc with hc | hc; exacts [o1 c hc, r2 c hc])
    (by intro c hc; rcases List.mem_append.1 hc with hc | hc; exacts [o1 c hc, s2 c hc]) e
  have hrs := List.append_cancel_left this
  apply hne
  rw [r3, s3, hrs]

/-! ### C38 -/

/-- **C38** (partial): a file without an outputPath is written inside the output
directory.  Missing: unclean absolute input paths, a single file in the root
directory, see `C38_overwrites_input`. -/
theorem C38_inside_partial (ys : List YamlFile) (ps : List (List Str)) (h : Entries ys ps)
    (cwd : List Str) (hw : ∀ c ∈ cwd, IsName c) (outDir : Str) (i : Nat) (y z : YamlFile)
    (hi : At ys i y z) (ho : y.outputPath = []) (hp : y.path ≠ ['-']) :
    ∃ o p, locate cwd outDir = absPath o ∧ locate cwd (outputName outDir z) = absPath p ∧ Below o p := by
  obtain ⟨d, _, _, hd⟩ := default_output h
  obtain ⟨r, r1, r2, _, r3, r4⟩ := hd i y z hi ho hp
  rw [outputName_relPath outDir z r1 r2 r4]
  obtain ⟨o, o1, o2, o3⟩ := locate_under cwd hw outDir r r1 r2
  exact ⟨o, o ++ r, o2, o3, r, r1, rfl⟩

/-- **C38**: so is a file with a relative outputPath made of names only (with or
without extension). -/
theorem C38_inside_explicit (ys : List YamlFile) (cwd : List Str) (hw : ∀ c ∈ cwd, IsName c) (outDir : Str)
    (i : Nat) (y z : YamlFile) (hi : At ys i y z) (r : List Str) (hr : r ≠ []) (hn : ∀ c ∈ r, IsName c)
    (ho : y.outputPath = relPath r) (p : List Str) (b : Str) (hb : IsName b) (hp : y.path = absPath (p ++ [b])) :
    ∃ o q, locate cwd outDir = absPath o ∧ locate cwd (outputName outDir z) = absPath q ∧ Below o q := by
  have hz := hi.output.2.2
  unfold outputPathFor at hz
  rw [if_neg (by rw [ho]; exact relPath_ne_nil hr hn)] at hz
  have hs : ∃ s : List Str, s ≠ [] ∧ (∀ c ∈ s, IsName c) ∧ z.outputPath = relPath s := by
    split at hz
    · refine ⟨r ++ [b], by simp, ?_, ?_⟩
      · intro c hc
        rcases List.mem_append.1 hc with hc | hc
        · exact hn c hc
        · rw [List.mem_singleton.1 hc]; exact hb
      · rw [hz, hp, baseOf_absPath _ _ hb, ho]
        have h1 := pathJoin_under (relPath r) [b] (by simp) (by intro c hc; rw [List.mem_singleton.1 hc]; exact hb)
        have h2 := pathJoin_under [] (r ++ [b]) (by simp) (by
          intro c hc
          rcases List.mem_append.1 hc with hc | hc
          · exact hn c hc
          · rw [List.mem_singleton.1 hc]; exact hb)
        have hj : relPath (r ++ [b]) = relPath r ++ '/' :: b := by
          have := absPath_concat r b
          rw [if_neg hr] at this
          unfold absPath at this
          simpa using this
        have hrb : relPath [b] = b := rfl
        rw [hrb] at h1
        have hc1 : clean [] = ['.'] := by decide
        rw [hc1] at h2
        simp only [under, if_true] at h2
        rw [← h2]
        simp only [pathJoin, ne_eq, relPath_ne_nil hr hn, relPath_ne_nil (r := r ++ [b]) (by simp) (by
          intro c hc
          rcases List.mem_append.1 hc with hc | hc
          · exact hn c hc
          · rw [List.mem_singleton.1 hc]; exact hb), hb.1, not_false_eq_true, decide_true, List.filter_cons_of_pos,
          List.filter_nil, reduceCtorEq, if_false, joinWith, not_true_eq_false, decide_false, Bool.false_eq_true,
          List.filter_cons_of_neg, List.cons_ne_self]
        rw [hj]
    · exact ⟨r, hr, hn, by rw [hz, ho]⟩
  obtain ⟨s, s1, s2, s3⟩ := hs
  rw [outputName_relPath outDir z s1 s2 s3]
  obtain ⟨o, _, o2, o3⟩ := locate_under cwd hw outDir s s1 s2
  exact ⟨o, o ++ s, o2, o3, s, s1, rfl⟩

/-- **C38** (partial): if no input file lies inside the output directory, no input
file is overwritten. -/
theorem C38_inputs_kept_partial (ys : List YamlFile) (ps : List (List Str)) (h : Entries ys ps)
    (cwd : List Str) (hw : ∀ c ∈ cwd, IsName c) (outDir : Str) (o : List Str) (hon : ∀ c ∈ o, IsName c)
    (ho : locate cwd outDir = absPath o) (hout : ∀ p ∈ ps, ¬ Below o p)
    (i : Nat) (y z : YamlFile) (hi : At ys i y z) (hy : y.outputPath = []) (hp : y.path ≠ ['-'])
    (y' : YamlFile) (hy' : y' ∈ ys) (hp' : y'.path ≠ ['-']) :
    locate cwd (outputName outDir z) ≠ locate cwd y'.path := by
  obtain ⟨d, _, _, hd⟩ := default_output h
  obtain ⟨r, r1, r2, _, r3, r4⟩ := hd i y z hi hy hp
  rw [outputName_relPath outDir z r1 r2 r4]
  obtain ⟨o', o1, o2, o3⟩ := locate_under cwd hw outDir r r1 r2
  have : o' = o := absPath_injective o1 hon (by rw [← o2, ho])
  subst this
  obtain ⟨p, hpm, he⟩ := h.path hy' hp'
  rw [o3, he]
  have : locate cwd (absPath p) = absPath p := by
    unfold locate
    rw [if_pos (show isAbs (absPath p) = true from rfl), clean_absPath _ (h.files.names p hpm).2]
  rw [this]
  intro e
  have := absPath_injective (p := o' ++ r) (q := p)
    (by intro c hc; rcases List.mem_append.1 hc with hc | hc; exacts [o1 c hc, r2 c hc]) (h.files.names p hpm).2 e
  exact hout p hpm ⟨r, r1, this.symm⟩

/-! ### C40 -/

/-- **C40**: an outputPath with an extension is used as it is. -/
theorem C40_file (ys : List YamlFile) (i : Nat) (y z : YamlFile) (hi : At ys i y z) (hx : HasExt y.outputPath) :
    z.outputPath = y.outputPath := by
  have hz := hi.output.2.2
  unfold outputPathFor at hz
  rw [if_neg, if_neg] at hz
  · exact hz
  · rw [extOf_iff]; simpa using hx
  · intro e
    rw [e] at hx
    obtain ⟨a, b, h, _⟩ := hx
    cases a <;> cases h

/-- **C40**: an outputPath without extension is a directory, in which the file keeps
its name. -/
theorem C40_directory (ys : List YamlFile) (i : Nat) (y z : YamlFile) (hi : At ys i y z) (hne : y.outputPath ≠ [])
    (hx : ¬ HasExt y.outputPath) (d : List Str) (b : Str) (hb : IsName b) (hp : y.path = absPath (d ++ [b])) :
    z.outputPath = under (clean y.outputPath) b := by
  have hz := hi.output.2.2
  unfold outputPathFor at hz
  rw [if_neg hne, if_pos ((extOf_iff _).2 hx), hp, baseOf_absPath _ _ hb] at hz
  rw [hz]
  exact pathJoin_under y.outputPath [b] (by simp) (by intro c hc; rw [List.mem_singleton.1 hc]; exact hb)

/-- **C40** (partial): without outputPath it is the path relative to the longest
directory common to all files. -/
theorem C40_default_partial (ys : List YamlFile) (ps : List (List Str)) (h : Entries ys ps) :
    ∃ d : List Str, (∀ p ∈ ps, Below d p) ∧ (∀ d', (∀ p ∈ ps, Below d' p) → ps ≠ [] → d' <+: d) ∧
    ∀ i y z, At ys i y z → y.outputPath = [] → y.path ≠ ['-'] →
      ∃ r, d ++ r ∈ ps ∧ y.path = absPath (d ++ r) ∧ z.outputPath = relPath r := by
  obtain ⟨d, h1, h2, h3⟩ := default_output h
  refine ⟨d, h1, h2, ?_⟩
  intro i y z ha ho hp
  obtain ⟨r, _, _, a, b, c⟩ := h3 i y z ha ho hp
  exact ⟨r, a, b, c⟩

/-! ### Examples and counterexamples -/

/-- Two files and standard input. -/
def Ex.outEntries : List YamlFile :=
  [{ path := c!"/w/in/a.yaml" }, { path := c!"-", outputPath := c!"stdin.yaml" }, { path := c!"/w/in/b/c.yaml" }]

example : Entries Ex.outEntries [[c!"w", c!"in", c!"a.yaml"], [c!"w", c!"in", c!"b", c!"c.yaml"]] where
  paths := by decide
  files :=
    { names := by decide
      nodup := by decide
      files := by
        intro p hp q hq h
        obtain ⟨r, hr, e⟩ := h
        simp only [List.mem_cons, List.not_mem_nil, or_false] at hp hq
        rcases hp with rfl | rfl <;> rcases hq with rfl | rfl <;> simp_all
      deep := by intro p h; cases h }

example : ((setOutputPaths Ex.outEntries).map (outputName c!"./output")) =
    [c!"output/a.yaml", c!"output/stdin.yaml", c!"output/b/c.yaml"] := by decide

/-- **C37** fails for relative paths (as `-p .` gives them): `a/ab.yaml` and
`ab.yaml` are written to the same file. -/
theorem C37_relative_collision :
    (setOutputPaths ([{ path := c!"a/ab.yaml" }, { path := c!"ab.yaml" }] : List YamlFile)).map (outputName c!"./output") =
      [c!"output/ab.yaml", c!"output/ab.yaml"] := by decide

/-- Files of one directory entry with an outputPath collide if they have the same
base name. -/
theorem C37_flattened :
    (setOutputPaths ([{ path := c!"/w/a/x.yaml", outputPath := c!"out" }, { path := c!"/w/b/x.yaml", outputPath := c!"out" }] : List YamlFile)).map
      (outputName c!"./output") = [c!"output/out/x.yaml", c!"output/out/x.yaml"] := by decide

/-- **C38** fails for a single file in the root directory and for unclean absolute
paths: the input file itself is overwritten, or a file in the root directory. -/
theorem C38_overwrites_input :
    (setOutputPaths ([{ path := c!"/b.yaml" }] : List YamlFile)).map (outputName c!"./output") = [c!"/b.yaml"] ∧
    (setOutputPaths ([{ path := c!"//w/b.yaml" }] : List YamlFile)).map (outputName c!"./output") = [c!"//w/b.yaml"] ∧
    (setOutputPaths ([{ path := c!"/w//b.yaml" }] : List YamlFile)).map (outputName c!"./output") = [c!"/b.yaml"] := by decide

/-- **C38** fails for an outputPath that climbs out of the output directory. -/
theorem C38_climbs :
    (setOutputPaths ([{ path := c!"/w/b.yaml", outputPath := c!"../b.yaml" }] : List YamlFile)).map (outputName c!"output") = [c!"b.yaml"] := by
  decide

/-- **C38** fails for every single file in the root directory: whatever the output directory, the
result is written over the input. -/
theorem C38_root_file (b : Str) (hb : IsName b) (y : YamlFile) (hp : y.path = absPath [b]) (ho : y.outputPath = []) (outDir : Str) :
    (setOutputPaths [y]).map (outputName outDir) = [y.path] := by
  have hne : absPath [b] ≠ ['-'] := by simp [absPath]
  have hpre : trimPrefix c!"//" (absPath [b]) = absPath [b] := by
    unfold trimPrefix
    rw [if_neg]
    obtain ⟨h1, h2, h3, h4⟩ := hb
    cases b with
    | nil => exact absurd rfl h1
    | cons c t =>
      simp only [absPath, relPath, hasPrefix, List.isPrefixOf, beq_self_eq_true, Bool.true_and, Bool.and_true, beq_iff_eq]
      intro e
      exact h4 (by rw [← e]; simp)
  simp only [setOutputPaths, List.map_cons, List.map_nil, hp, List.filter_cons_of_pos (p := fun x => decide (x ≠ ['-'])) (by simpa using hne),
    List.filter_nil, C39_root_file b hb, outputPathFor, ho, if_true, hpre, outputName]
  rw [if_pos (show isAbs (absPath [b]) = true from rfl)]

/-- **C40** fails for standard input listed without outputPath: its result is always written to a
file of the name `-`. -/
theorem C40_stdin_always (ys : List YamlFile) (i : Nat) (y z : YamlFile) (hi : At ys i y z) (hp : y.path = ['-']) (ho : y.outputPath = []) :
    z.outputPath = ['-'] := by
  obtain ⟨h1, h2⟩ := hi
  unfold setOutputPaths at h2
  rw [List.getElem?_map, h1, Option.map_some, Option.some.injEq] at h2
  subst h2
  simp only [outputPathFor, ho, if_true, hp]
  generalize (ys.map (fun x : YamlFile => x.path)).filter (fun x => decide (x ≠ ['-'])) = l
  have : getCommonPrefix l = [] ∨ '/' ∈ getCommonPrefix l := by
    match l with
    | [] => exact .inl rfl
    | [p] => right; simp [getCommonPrefix]
    | p :: q :: r => right; simp [getCommonPrefix]
  rcases this with e | e
  · rw [e]; rfl
  · unfold trimPrefix
    rw [if_neg]
    intro hpre
    have hpre : getCommonPrefix l <+: ['-'] := List.isPrefixOf_iff_prefix.1 hpre
    have := hpre.subset e
    simp at this

/-- Standard input listed in an instructions file without outputPath is written to
a file named `-`. -/
theorem C40_stdin : (setOutputPaths ([{ path := c!"-" }] : List YamlFile)).map (outputName c!"./output") = [c!"output/-"] := by decide

end Yot
