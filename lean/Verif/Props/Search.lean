import Verif.Spec.Search
import Verif.Props.Config
import Verif.Props.Dirs
/-
C81: which configuration file is used.
-/
namespace Yot
open Spec

theorem absPath_append (ps r : List Str) (hp : ∀ c ∈ ps, IsName c) (hne : r ≠ []) :
    absPath (ps ++ r) = under (absPath ps) (relPath r) := by
  unfold under
  rw [if_neg (by unfold absPath; simp)]
  by_cases h0 : ps = []
  · subst h0; rfl
  · rw [if_neg]
    · unfold absPath
      rw [relPath_eq, relPath_eq, relPath_eq]
      induction ps with
      | nil => exact absurd rfl h0
      | cons a ps ih =>
        cases ps with
        | nil =>
          cases r with
          | nil => exact absurd rfl hne
          | cons b r => rfl
        | cons b ps =>
          have := ih (fun c hc => hp c (by simp [hc])) (by simp)
          simp only [List.cons_append, joinWith, List.cons.injEq, true_and, List.append_assoc] at this ⊢
          rw [this]
    · unfold absPath
      simp only [List.cons.injEq, true_and]
      exact relPath_ne_nil h0 hp

theorem pathJoin_names (ps r : List Str) (hp : ∀ c ∈ ps, IsName c) (hr : ∀ c ∈ r, IsName c) (hne : r ≠ []) :
    pathJoin [absPath ps, relPath r] = absPath (ps ++ r) := by
  rw [pathJoin_under _ _ hne hr, clean_absPath _ hp, absPath_append _ _ hp hne]

theorem clean_trailing (s : Str) (h : s ≠ []) : clean (s ++ ['/']) = clean s := by
  have hab : isAbs (s ++ ['/']) = isAbs s := by
    cases s with
    | nil => exact absurd rfl h
    | cons x xs => rfl
  have hst : stackOf (s ++ ['/']) = stackOf s := by
    unfold stackOf
    rw [hab, splitOn_append, List.foldl_append]
    simp [splitOn, cleanStep]
  rw [clean_eq, clean_eq, hab, hst]

theorem absPathify_here (w : List Str) (hw : ∀ c ∈ w, IsName c) : absPathify (absPath w) c!"./" = absPath w := by
  have h1 : absPathify (absPath w) c!"./" = clean (absPath w ++ '/' :: c!"./") := by
    unfold absPathify
    rw [if_neg (by decide)]
    unfold pathJoin
    rw [show [absPath w, c!"./"].filter (· ≠ []) = [absPath w, c!"./"] from by
      simp [absPath]]
    simp [joinWith]
  rw [h1, show absPath w ++ '/' :: c!"./" = (absPath w ++ c!"/.") ++ ['/'] from by simp,
    clean_trailing _ (by simp [absPath])]
  have hst : stackOf (absPath w ++ c!"/.") = stackOf (absPath w) := by
    unfold stackOf
    rw [show isAbs (absPath w ++ c!"/.") = isAbs (absPath w) from rfl,
      show absPath w ++ c!"/." = absPath w ++ '/' :: ['.'] from rfl, splitOn_append, List.foldl_append]
    simp [splitOn, cleanStep]
  rw [clean_eq, hst, show isAbs (absPath w ++ c!"/.") = isAbs (absPath w) from rfl, ← clean_eq, clean_absPath w hw]

theorem absPathify_home (w h : List Str) (hh : ∀ c ∈ h, IsName c) :
    absPathify (absPath w) (absPath h ++ c!"/.yot/") = absPath (h ++ [c!".yot"]) := by
  unfold absPathify
  rw [if_pos (show isAbs (absPath h ++ c!"/.yot/") = true from rfl), show absPath h ++ c!"/.yot/" = (absPath h ++ '/' :: relPath [c!".yot"]) ++ ['/'] from by
    simp [relPath, show c!"/.yot/" = '/' :: (c!".yot" ++ ['/']) from rfl], clean_trailing _ (by simp [absPath]),
    clean_under _ (by simp [absPath]) _ (by simp) (by decide), clean_absPath h hh, absPath_append h _ hh (by simp)]

/-- The directories searched are the documented ones. -/
theorem dirs_eq (S : Search) (w h : List Str) (hw : ∀ c ∈ w, IsName c) (hh : ∀ c ∈ h, IsName c)
    (h1 : S.cwd = absPath w) (h2 : S.home = absPath h) : S.dirs = (defaultDirs w h).map absPath := by
  unfold Search.dirs defaultDirs
  rw [h1, h2, absPathify_here w hw, absPathify_home w h hh]
  have : absPathify (absPath w) c!"/etc/yot/" = absPath [c!"etc", c!"yot"] := by
    unfold absPathify
    rw [if_pos (by decide)]
    decide
  rw [this]; rfl

theorem configName_isName (e : Str) (he : '/' ∉ e) : IsName (c!"yot.config" ++ '.' :: e) := by
  refine ⟨by simp, ?_, ?_, ?_⟩
  · intro h; have := congrArg List.length h; simp at this
  · intro h; have := congrArg List.length h; simp at this
  · intro h
    rcases List.mem_append.1 h with h | h
    · revert h; decide
    · rcases List.mem_cons.1 h with h | h
      · revert h; decide
      · exact he h

theorem defaultDirs_names (w h : List Str) (hw : ∀ c ∈ w, IsName c) (hh : ∀ c ∈ h, IsName c) :
    ∀ d ∈ defaultDirs w h, ∀ c ∈ d, IsName c := by
  intro d hd c hc
  simp only [defaultDirs, List.mem_cons, List.not_mem_nil, or_false] at hd
  rcases hd with rfl | rfl | rfl
  · exact hw c hc
  · rcases List.mem_append.1 hc with h | h
    · exact hh c h
    · rw [List.mem_singleton.1 h]; decide
  · revert c; decide

theorem inDir_eq (S : Search) (hx : ∀ e ∈ S.exts, '/' ∉ e) (d : List Str) (hd : ∀ c ∈ d, IsName c) :
    S.inDir (absPath d) = ((S.exts.map (fun e => d ++ [c!"yot.config." ++ e]) ++ [d ++ [c!"yot.config"]]).map absPath).find? S.isFile := by
  unfold Search.inDir
  congr 1
  rw [List.map_append, List.map_map]
  congr 1
  · apply List.map_congr_left
    intro e he
    rw [pathJoin_name d _ hd (configName_isName e (hx e he))]
    rfl
  · rw [pathJoin_name d _ hd (by decide)]; rfl

theorem findSome_flatMap {α β : Type} (p : β → Bool) (f : α → List β) (l : List α) :
    l.findSome? (fun a => (f a).find? p) = (l.flatMap f).find? p := by
  induction l with
  | nil => rfl
  | cons a l ih =>
    rw [List.findSome?_cons, List.flatMap_cons, List.find?_append]
    cases (f a).find? p with
    | some x => rfl
    | none => exact ih

theorem find_eq (S : Search) (w h : List Str) (hw : ∀ c ∈ w, IsName c) (hh : ∀ c ∈ h, IsName c)
    (h1 : S.cwd = absPath w) (h2 : S.home = absPath h) (hx : ∀ e ∈ S.exts, '/' ∉ e) :
    S.find = ((allPlaces S.exts w h).map absPath).find? S.isFile := by
  unfold Search.find allPlaces
  rw [dirs_eq S w h hw hh h1 h2, List.findSome?_map, List.map_flatMap, ← findSome_flatMap]
  have := defaultDirs_names w h hw hh
  generalize defaultDirs w h = ds at this
  induction ds with
  | nil => rfl
  | cons d ds ih =>
    rw [List.findSome?_cons, List.findSome?_cons, ih (fun d hd => this d (by simp [hd]))]
    simp only [Function.comp]
    rw [inDir_eq S hx d (this d (by simp))]

theorem find_first (isFile : Str → Bool) (l : List (List Str)) (p : Str) :
    (l.map absPath).find? isFile = some p ↔ ∃ cs, FirstWith (fun p => isFile (absPath p) = true) l cs ∧ p = absPath cs := by
  constructor
  · intro h
    induction l with
    | nil => cases h
    | cons a l ih =>
      rw [List.map_cons, List.find?_cons] at h
      cases ha : isFile (absPath a) with
      | true =>
        rw [ha] at h
        cases h
        exact ⟨a, ⟨[], l, rfl, ha, by simp⟩, rfl⟩
      | false =>
        rw [ha] at h
        obtain ⟨cs, ⟨x, y, e, hp, hn⟩, rfl⟩ := ih h
        refine ⟨cs, ⟨a :: x, y, by rw [e]; rfl, hp, ?_⟩, rfl⟩
        intro q hq
        rcases List.mem_cons.1 hq with rfl | hq
        · simp [ha]
        · exact hn q hq
  · rintro ⟨cs, ⟨x, y, e, hp, hn⟩, rfl⟩
    subst e
    induction x with
    | nil => simp [hp]
    | cons a x ih =>
      rw [List.cons_append, List.map_cons, List.find?_cons, show isFile (absPath a) = false from by simpa using hn a (by simp)]
      exact ih (fun q hq => hn q (by simp [hq]))

/-- Without files with an extension, only the documented places count. -/
theorem find_plain (S : Search) (w h : List Str)
    (hn : ∀ d ∈ defaultDirs w h, ∀ e ∈ S.exts, S.isFile (absPath (d ++ [c!"yot.config." ++ e])) = false) :
    ((allPlaces S.exts w h).map absPath).find? S.isFile = ((defaultPlaces w h).map absPath).find? S.isFile := by
  have hp : defaultPlaces w h = (defaultDirs w h).map (fun d => d ++ [c!"yot.config"]) := by
    simp [defaultPlaces, defaultDirs]
  rw [hp]
  unfold allPlaces
  generalize defaultDirs w h = ds at hn
  induction ds with
  | nil => rfl
  | cons d ds ih =>
    rw [List.flatMap_cons, List.map_append, List.map_append, List.append_assoc, List.find?_append]
    have : ((S.exts.map (fun e => d ++ [c!"yot.config." ++ e])).map absPath).find? S.isFile = none := by
      rw [List.find?_eq_none]
      intro x hx
      rw [List.map_map, List.mem_map] at hx
      obtain ⟨e, he, rfl⟩ := hx
      simpa using hn d (by simp) e he
    rw [this, List.map_cons, List.map_cons, List.map_cons, List.map_nil, List.cons_append, List.nil_append]
    simp only [Option.none_or, List.find?_cons]
    rw [ih (fun d hd => hn d (by simp [hd]))]

theorem start_asked (S : Search) (flags env : Str → Option Str) (p : Str) (h : AskedFor flags env p) :
    fileEntries (S.start flags env) = S.entries (absPathify S.cwd p) ∧ fileUsed (S.start flags env) = some p := by
  obtain ⟨hne, h⟩ := h
  cases p with
  | nil => exact absurd rfl hne
  | cons c p =>
    rcases h with h | ⟨h, h'⟩
    · constructor
      · simp only [fileEntries, Search.start, h]
      · simp only [fileUsed, Search.start, h]
    · constructor
      · simp only [fileEntries, Search.start, h, h']
      · simp only [fileUsed, Search.start, h, h']

theorem start_search (S : Search) (flags env : Str → Option Str) (h : ∀ p, ¬ AskedFor flags env p) :
    fileEntries (S.start flags env) = (if (S.start flags env).foundBad then none else some (((S.start flags env).found.map Prod.snd).getD [])) ∧
      fileUsed (S.start flags env) = (S.start flags env).found.map Prod.fst := by
  have key : ∀ f : Option Str, ∀ v : Option Str, flags c!"config" = f → env c!"YOT_CONFIG_FILE" = v →
      (∀ c p, f ≠ some (c :: p)) ∧ (∀ c p, f = none → v ≠ some (c :: p)) := by
    intro f v hf hv
    refine ⟨fun c p e => h (c :: p) ⟨by simp, Or.inl (by rw [hf, e])⟩, fun c p e e' => h (c :: p) ⟨by simp, Or.inr ⟨by rw [hf, e], by rw [hv, e']⟩⟩⟩
  obtain ⟨k1, k2⟩ := key _ _ rfl rfl
  unfold fileEntries fileUsed
  rw [show (S.start flags env).flags c!"config" = flags c!"config" from rfl,
    show (S.start flags env).env c!"YOT_CONFIG_FILE" = env c!"YOT_CONFIG_FILE" from rfl]
  cases hf : flags c!"config" with
  | none =>
    cases hv : env c!"YOT_CONFIG_FILE" with
    | none => exact ⟨rfl, rfl⟩
    | some v =>
      cases v with
      | nil => exact ⟨rfl, rfl⟩
      | cons c p => exact absurd hv (k2 c p hf)
  | some f =>
    cases f with
    | nil => exact ⟨rfl, rfl⟩
    | cons c p => exact absurd hf (k1 c p)

theorem start_found (S : Search) (flags env : Str → Option Str) (h : ∀ p, ¬ AskedFor flags env p) (p : Str) (hp : S.find = some p) :
    fileEntries (S.start flags env) = S.entries p ∧ ((S.entries p).isSome → fileUsed (S.start flags env) = some p) := by
  obtain ⟨h1, h2⟩ := start_search S flags env h
  rw [h1, h2]
  simp only [Search.start, hp, Option.any_some, Option.bind_some]
  cases S.entries p with
  | none => simp
  | some es => simp

theorem start_nothing (S : Search) (flags env : Str → Option Str) (h : ∀ p, ¬ AskedFor flags env p) (hp : S.find = none) :
    fileEntries (S.start flags env) = some [] ∧ fileUsed (S.start flags env) = none := by
  obtain ⟨h1, h2⟩ := start_search S flags env h
  rw [h1, h2]
  simp [Search.start, hp]

/-- **C81**: the file used when none is asked for is, exactly, the first existing one of: in the
working directory, in `.yot` in the home directory, in `/etc/yot`, there first `yot.config` with
each of viper's extensions, then `yot.config`; the setting `configFile` names it. -/
theorem C81_found (S : Search) (w h : List Str) (hw : ∀ c ∈ w, IsName c) (hh : ∀ c ∈ h, IsName c)
    (h1 : S.cwd = absPath w) (h2 : S.home = absPath h) (hx : ∀ e ∈ S.exts, '/' ∉ e) (flags env : Str → Option Str)
    (ha : ∀ p, ¬ AskedFor flags env p) (cs : List Str)
    (hf : FirstWith (fun p => S.isFile (absPath p) = true) (allPlaces S.exts w h) cs) :
    fileEntries (S.start flags env) = S.entries (absPath cs) ∧
      ((S.entries (absPath cs)).isSome → setting (S.start flags env) c!"configFile" = some (.text (absPath cs))) := by
  have hfind : S.find = some (absPath cs) := by
    rw [find_eq S w h hw hh h1 h2 hx]
    exact (find_first _ _ _).2 ⟨cs, hf, rfl⟩
  obtain ⟨e1, e2⟩ := start_found S flags env ha _ hfind
  refine ⟨e1, fun hs => ?_⟩
  rw [C46_config_file_named _ (by rw [e1]; exact Option.isSome_iff_ne_none.1 hs), e2 hs]
  rfl

/-- **C81**: without any such file nothing is read, and `configFile` is empty. -/
theorem C81_nothing (S : Search) (w h : List Str) (hw : ∀ c ∈ w, IsName c) (hh : ∀ c ∈ h, IsName c)
    (h1 : S.cwd = absPath w) (h2 : S.home = absPath h) (hx : ∀ e ∈ S.exts, '/' ∉ e) (flags env : Str → Option Str)
    (ha : ∀ p, ¬ AskedFor flags env p) (hf : ∀ p ∈ allPlaces S.exts w h, S.isFile (absPath p) = false) :
    fileEntries (S.start flags env) = some [] ∧ setting (S.start flags env) c!"configFile" = some (.text []) := by
  have hfind : S.find = none := by
    rw [find_eq S w h hw hh h1 h2 hx, List.find?_eq_none]
    intro x hx
    obtain ⟨p, hp, rfl⟩ := List.mem_map.1 hx
    simp [hf p hp]
  obtain ⟨e1, e2⟩ := start_nothing S flags env ha hfind
  refine ⟨e1, ?_⟩
  rw [C46_config_file_named _ (by rw [e1]; simp), e2]
  rfl

/-- **C81** (partial): the configuration file used is the documented one, whatever it contains (if
it is no configuration, the run fails: `C46_config_file`; no other is tried), provided no file
`yot.config` with an extension is in one of the directories.  Missing: those, see
`C81_extension_first` and `C81_found`. -/
theorem C81_used_partial (S : Search) (w h : List Str) (hw : ∀ c ∈ w, IsName c) (hh : ∀ c ∈ h, IsName c)
    (h1 : S.cwd = absPath w) (h2 : S.home = absPath h) (hx : ∀ e ∈ S.exts, '/' ∉ e)
    (hn : ∀ d ∈ defaultDirs w h, ∀ e ∈ S.exts, S.isFile (absPath (d ++ [c!"yot.config." ++ e])) = false)
    (flags env : Str → Option Str) (p : Option Str) (hp : ConfigAt S.isFile w h flags env p) :
    fileEntries (S.start flags env) = p.elim (some []) S.entries := by
  have hfind : S.find = ((defaultPlaces w h).map absPath).find? S.isFile := by
    rw [find_eq S w h hw hh h1 h2 hx, find_plain S w h hn]
  cases hp with
  | absolute cs hc hA =>
    rw [(start_asked S flags env _ hA).1, absPathify, if_pos (show isAbs (absPath cs) = true from rfl), clean_absPath cs hc]
    rfl
  | relative cs hne hc hA =>
    rw [(start_asked S flags env _ hA).1, absPathify, if_neg, h1, pathJoin_names w cs hw hc hne]
    · rfl
    · rw [relPath_eq]
      cases cs with
      | nil => exact absurd rfl hne
      | cons c cs =>
        have hcn := hc c (by simp)
        have := joinWith_head cs c hcn.1
        have h3 := isAbs_of_mem hcn
        unfold isAbs at h3 ⊢
        rw [this, h3]; simp
  | default cs hA hF =>
    exact (start_found S flags env hA _ (by rw [hfind]; exact (find_first _ _ _).2 ⟨cs, hF, rfl⟩)).1
  | nothing hA hF =>
    refine (start_nothing S flags env hA ?_).1
    rw [hfind, List.find?_eq_none]
    intro x hx
    obtain ⟨p, hp, rfl⟩ := List.mem_map.1 hx
    simp [hF p hp]

/-- **C81** (partial): so every setting has the value this file gives it, unless a flag does. -/
theorem C81_value_partial (S : Search) (w h : List Str) (hw : ∀ c ∈ w, IsName c) (hh : ∀ c ∈ h, IsName c)
    (h1 : S.cwd = absPath w) (h2 : S.home = absPath h) (hx : ∀ e ∈ S.exts, '/' ∉ e)
    (hn : ∀ d ∈ defaultDirs w h, ∀ e ∈ S.exts, S.isFile (absPath (d ++ [c!"yot.config." ++ e])) = false)
    (flags env : Str → Option Str) (f : Str) (hp : ConfigAt S.isFile w h flags env (some f))
    (es : List (Str × CVal)) (hes : S.entries f = some es) (hd : (es.map (fun e => toLowerStr e.1)).Nodup)
    (t : Setting) (ht : t ∈ settings) (x : CVal) (hs : FileSays es t.name (some x)) (hfl : flags t.flag = none)
    (hv : env t.var = none) : setting (S.start flags env) t.name = some x := by
  have := C81_used_partial S w h hw hh h1 h2 hx hn flags env (some f) hp
  rw [Option.elim_some, hes] at this
  rw [C46_precedence_partial _ es this hd t ht (some x) hs (Or.inr (Or.inl hv))]
  unfold documented
  rw [show (S.start flags env).flags t.flag = none from hfl, show (S.start flags env).env t.var = none from hv]
  rfl

/-- **C81** (partial): configuration files are not merged: what is written in any file but the one
used changes no setting. -/
theorem C81_not_merged_partial (S : Search) (w h : List Str) (hw : ∀ c ∈ w, IsName c) (hh : ∀ c ∈ h, IsName c)
    (h1 : S.cwd = absPath w) (h2 : S.home = absPath h) (hx : ∀ e ∈ S.exts, '/' ∉ e)
    (hn : ∀ d ∈ defaultDirs w h, ∀ e ∈ S.exts, S.isFile (absPath (d ++ [c!"yot.config." ++ e])) = false)
    (flags env : Str → Option Str) (f : Str) (hp : ConfigAt S.isFile w h flags env (some f))
    (entries' : Str → Option (List (Str × CVal))) (he : entries' f = S.entries f) (name : Str) :
    setting ({ S with entries := entries' }.start flags env) name = setting (S.start flags env) name := by
  have e1 := C81_used_partial S w h hw hh h1 h2 hx hn flags env (some f) hp
  have e2 := C81_used_partial { S with entries := entries' } w h hw hh h1 h2 hx hn flags env (some f) hp
  rw [Option.elim_some] at e1 e2
  have e2 : fileEntries ({ S with entries := entries' }.start flags env) = S.entries f := by rw [e2]; exact he
  cases hf : S.entries f with
  | none =>
    unfold setting
    rw [(C46_config_file _).2 (by rw [e2, hf]), (C46_config_file _).2 (by rw [e1, hf])]
    rfl
  | some es =>
    have hu : fileUsed ({ S with entries := entries' }.start flags env) = fileUsed (S.start flags env) := by
      cases hp with
      | absolute cs hc hA => rw [(start_asked _ flags env _ hA).2, (start_asked _ flags env _ hA).2]
      | relative cs hne hc hA => rw [(start_asked _ flags env _ hA).2, (start_asked _ flags env _ hA).2]
      | default cs hA hF =>
        have hfind : S.find = some (absPath cs) := by
          rw [find_eq S w h hw hh h1 h2 hx, find_plain S w h hn]
          exact (find_first _ _ _).2 ⟨cs, hF, rfl⟩
        rw [(start_found S flags env hA _ hfind).2 (by rw [hf]; rfl),
          (start_found { S with entries := entries' } flags env hA _ hfind).2 (by simp only; rw [he, hf]; rfl)]
    rw [hf] at e1 e2
    obtain ⟨o1, i1, p1⟩ := initConfig_entries _ es e1
    obtain ⟨o2, i2, p2⟩ := initConfig_entries _ es e2
    unfold setting
    rw [i1, i2, p1, p2, hu]
    rfl

/-- A machine with all three files and one with an extension, in this order of discovery. -/
def Ex.places : Search where
  cwd := c!"/w"
  home := c!"/root"
  exts := [c!"json", c!"yaml"]
  isFile := fun p => p ∈ [c!"/root/.yot/yot.config", c!"/etc/yot/yot.config"]
  entries := fun p =>
    if p = c!"/root/.yot/yot.config" then some [(c!"stdout", .bool true)]
    else if p = c!"/etc/yot/yot.config" then some [(c!"stdout", .bool false), (c!"indentLevel", .int 4)]
    else if p = c!"/w/conf/my.yaml" then some [(c!"indentLevel", .int 8)]
    else none

example : setting (Ex.places.start (fun _ => none) (fun _ => none)) c!"indentLevel" = some (.text c!"2") ∧
    setting (Ex.places.start (fun _ => none) (fun _ => none)) c!"stdout" = some (.bool true) := by decide +kernel

example : ConfigAt Ex.places.isFile [c!"w"] [c!"root"] (fun _ => none) (fun _ => none) (some c!"/root/.yot/yot.config") :=
  .default [c!"root", c!".yot", c!"yot.config"] (by rintro p ⟨_, h | ⟨_, h⟩⟩ <;> cases h)
    ⟨[[c!"w", c!"yot.config"]], [[c!"etc", c!"yot", c!"yot.config"]], by decide, by decide, by decide⟩

example : ConfigAt Ex.places.isFile [c!"w"] [c!"root"] (fun f => if f = c!"config" then some c!"conf/my.yaml" else none) (fun _ => some c!"/x")
    (some c!"/w/conf/my.yaml") :=
  .relative [c!"conf", c!"my.yaml"] (by decide) (by decide) ⟨by decide, Or.inl (by decide)⟩

example : (∀ c ∈ [c!"w"], IsName c) ∧ (∀ c ∈ [c!"root"], IsName c) ∧ Ex.places.cwd = absPath [c!"w"] ∧
    Ex.places.home = absPath [c!"root"] ∧ (∀ e ∈ Ex.places.exts, '/' ∉ e) ∧
    (∀ d ∈ defaultDirs [c!"w"] [c!"root"], ∀ e ∈ Ex.places.exts, Ex.places.isFile (absPath (d ++ [c!"yot.config." ++ e])) = false) := by
  decide +kernel

/-- **C81** fails with extensions: a file `yot.config.yaml` lying in the working directory is taken
instead of the documented `yot.config` there. -/
theorem C81_extension_first :
    let S : Search := { cwd := c!"/w", home := c!"/root", exts := [c!"json", c!"yaml"], isFile := fun p => p ∈ [c!"/w/yot.config", c!"/w/yot.config.yaml"], entries := fun p => if p = c!"/w/yot.config" then some [(c!"indentLevel", .int 4)] else if p = c!"/w/yot.config.yaml" then some [] else none }
    ConfigAt S.isFile [c!"w"] [c!"root"] (fun _ => none) (fun _ => none) (some c!"/w/yot.config") ∧
      setting (S.start (fun _ => none) (fun _ => none)) c!"indentLevel" = some (.text c!"2") ∧
      setting (S.start (fun _ => none) (fun _ => none)) c!"configFile" = some (.text c!"/w/yot.config.yaml") := by
  refine ⟨?_, by decide +kernel, by decide +kernel⟩
  exact .default [c!"w", c!"yot.config"] (by rintro p ⟨_, h | ⟨_, h⟩⟩ <;> cases h) ⟨[], _, rfl, by decide, by simp⟩

end Yot
