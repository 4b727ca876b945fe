import Verif.Spec.Config
import Verif.Lemmas.Tac
/-
C46: where settings come from.
-/
namespace Yot
open Spec

theorem assoc_map_lower (es : List (Str × CVal)) (name : Str) (r : Option CVal)
    (hd : (es.map (fun e => toLowerStr e.1)).Nodup) (h : FileSays es name r) :
    assoc (toLowerStr name) (es.map (fun e => (toLowerStr e.1, e.2))) = r := by
  induction es with
  | nil =>
    cases r with
    | none => rfl
    | some x => obtain ⟨k, hk, _⟩ := h; cases hk
  | cons e es ih =>
    rw [List.map_cons, List.nodup_cons] at hd
    rw [List.map_cons]
    by_cases he : toLowerStr e.1 = toLowerStr name
    · have : assoc (toLowerStr name) ((toLowerStr e.1, e.2) :: es.map (fun e => (toLowerStr e.1, e.2))) = some e.2 := by
        simp [assoc, he]
      rw [this]
      cases r with
      | none => exact absurd he (h e.1 e.2 (by simp))
      | some x =>
        obtain ⟨k, hk, hs⟩ := h
        rcases List.mem_cons.1 hk with hk | hk
        · rw [← hk]
        · exfalso
          apply hd.1
          rw [List.mem_map]
          exact ⟨(k, x), hk, by rw [he]; exact hs⟩
    · have : assoc (toLowerStr name) ((toLowerStr e.1, e.2) :: es.map (fun e => (toLowerStr e.1, e.2))) =
          assoc (toLowerStr name) (es.map (fun e => (toLowerStr e.1, e.2))) := by
        simp [assoc, he]
      rw [this]
      apply ih hd.2
      cases r with
      | none => exact fun k x hk => h k x (by simp [hk])
      | some x =>
        obtain ⟨k, hk, hs⟩ := h
        rcases List.mem_cons.1 hk with hk | hk
        · exfalso; apply he; rw [← hk]; exact hs
        · exact ⟨k, hk, hs⟩

theorem initConfig_entries (s : Start) (es : List (Str × CVal)) (hf : fileEntries s = some es) :
    ∃ ov, initConfig s = some { bindEnvs (flagsBound s) with config := es.map (fun e => (toLowerStr e.1, e.2)), override := ov } ∧
      ov = ((fileUsed s).map (fun p => (toLowerStr c!"configFile", p))).toList := by
  have hov : (bindEnvs (flagsBound s)).override = [] := rfl
  have hcf : (bindEnvs (flagsBound s)).config = [] := rfl
  have asked : ∀ c p, configFileArg s = c :: p → s.fileAt (c :: p) = some es → fileUsed s = some (c :: p) →
      ∃ ov, initConfig s = some { bindEnvs (flagsBound s) with config := es.map (fun e => (toLowerStr e.1, e.2)), override := ov } ∧
      ov = ((fileUsed s).map (fun p => (toLowerStr c!"configFile", p))).toList := by
    intro c p h1 h2 h3
    refine ⟨[(toLowerStr c!"configFile", c :: p)], ?_, by rw [h3]; rfl⟩
    unfold initConfig
    rw [if_pos (by rw [h1]; simp), h1, h2]
    rfl
  have search : configFileArg s = [] → (if s.foundBad then none else some ((s.found.map Prod.snd).getD [])) = some es →
      fileUsed s = s.found.map Prod.fst →
      ∃ ov, initConfig s = some { bindEnvs (flagsBound s) with config := es.map (fun e => (toLowerStr e.1, e.2)), override := ov } ∧
      ov = ((fileUsed s).map (fun p => (toLowerStr c!"configFile", p))).toList := by
    intro h1 h2 h3
    unfold initConfig
    rw [h3]
    simp only [h1, ne_eq, not_true_eq_false, if_false]
    split at h2
    · cases h2
    rename_i hb
    rw [if_neg hb]
    cases hfd : s.found with
    | none =>
      rw [hfd] at h2
      simp only [Option.map_none, Option.getD_none, Option.some.injEq] at h2
      subst h2
      exact ⟨[], rfl, rfl⟩
    | some q =>
      obtain ⟨p, es'⟩ := q
      rw [hfd] at h2
      simp only [Option.map_some, Option.getD_some, Option.some.injEq] at h2
      subst h2
      exact ⟨[(toLowerStr c!"configFile", p)], rfl, rfl⟩
  unfold fileEntries at hf
  split at hf
  · rename_i c p h
    exact asked c p (by simp [configFileArg, h]) hf (by simp [fileUsed, h])
  · rename_i c p h1 h2
    exact asked c p (by simp [configFileArg, h1, h2]) hf (by simp [fileUsed, h1, h2])
  · rename_i h1 h2
    have hused : fileUsed s = s.found.map Prod.fst := by
      unfold fileUsed
      split
      · rename_i c p h; exact absurd h (h1 c p)
      · rename_i c p ha hb; exact absurd hb (h2 c p ha)
      · rfl
    refine search ?_ hf hused
    unfold configFileArg
    cases h3 : s.flags c!"config" with
    | some x =>
      cases x with
      | nil => rfl
      | cons c p => exact absurd h3 (h1 c p)
    | none =>
      cases h4 : s.env c!"YOT_CONFIG_FILE" with
      | none => rfl
      | some x =>
        cases x with
        | nil => rfl
        | cons c p => exact absurd h4 (h2 c p h3)

/-- The value of a setting in full: the environment plays no role. -/
theorem setting_eq (s : Start) (es : List (Str × CVal)) (hf : fileEntries s = some es)
    (hd : (es.map (fun e => toLowerStr e.1)).Nodup) (t : Setting) (ht : t ∈ settings) (inFile : Option CVal)
    (hs : FileSays es t.name inFile) :
    setting s t.name = some (((s.flags t.flag).map .text).getD (inFile.getD (.text t.dflt))) := by
  obtain ⟨ov, hi, hov⟩ := initConfig_entries s es hf
  have ha := assoc_map_lower es t.name inFile hd hs
  have hfl : assoc (toLowerStr t.name) (bindEnvs (flagsBound s)).pflags = some (s.flags t.flag, t.dflt) ∧
      assoc (toLowerStr t.name) (bindEnvs (flagsBound s)).env = none ∧
      (assoc (toLowerStr t.name) (bindEnvs (flagsBound s)).defaults = none ∨
        assoc (toLowerStr t.name) (bindEnvs (flagsBound s)).defaults = some t.dflt) ∧
      assoc (toLowerStr t.name) ov = none := by
    have hk : toLowerStr t.name ≠ toLowerStr c!"configFile" := by
      exact (by decide : ∀ t ∈ settings, toLowerStr t.name ≠ toLowerStr c!"configFile") t ht
    refine ⟨?_, ?_, ?_, ?_⟩
    · clear hi hov ha hs hk
      simp only [settings, List.mem_cons, List.not_mem_nil, or_false] at ht
      rcases ht with rfl | rfl | rfl | rfl | rfl | rfl | rfl <;> rfl
    · clear hi hov ha hs hk
      simp only [settings, List.mem_cons, List.not_mem_nil, or_false] at ht
      rcases ht with rfl | rfl | rfl | rfl | rfl | rfl | rfl <;> rfl
    · clear hi hov ha hs hk
      simp only [settings, List.mem_cons, List.not_mem_nil, or_false] at ht
      rcases ht with rfl | rfl | rfl | rfl | rfl | rfl | rfl <;> first | exact .inl rfl | exact .inr rfl
    · rw [hov]
      cases fileUsed s with
      | none => rfl
      | some p => simp [assoc, Ne.symm hk]
  obtain ⟨h1, h2, h3, h4⟩ := hfl
  unfold setting
  rw [hi, Option.bind_some]
  unfold Viper.get
  simp only [h1, h2, h4, ha]
  cases s.flags t.flag with
  | some x => rfl
  | none =>
    cases inFile with
    | some x => rfl
    | none => rcases h3 with h3 | h3 <;> rw [h3] <;> rfl

/-- **C46** (partial): a setting is the flag if given, else the value in the
configuration file (found by flag, variable or search, keys in any letter case),
else the default, for every command line, environment and file in which the
setting's own variable is not set (or the flag is given).  Missing: the variable,
see `C46_variable_ignored`. -/
theorem C46_precedence_partial (s : Start) (es : List (Str × CVal)) (hf : fileEntries s = some es)
    (hd : (es.map (fun e => toLowerStr e.1)).Nodup) (t : Setting) (ht : t ∈ settings) (inFile : Option CVal)
    (hs : FileSays es t.name inFile) (hv : (s.flags t.flag).isSome ∨ s.env t.var = none ∨ s.env t.var = some []) :
    setting s t.name = some (documented s t inFile) := by
  rw [setting_eq s es hf hd t ht inFile hs]
  unfold documented
  cases hfl : s.flags t.flag with
  | some x => rfl
  | none =>
    rcases hv with hv | hv | hv
    · rw [hfl] at hv; cases hv
    · rw [hv]; rfl
    · rw [hv]; rfl

/-- **C46** fails for the variables: none of them, nor any other variable, has any
influence on a setting other than through the configuration file it names. -/
theorem C46_variable_ignored (s : Start) (env' : Str → Option Str) (hc : env' c!"YOT_CONFIG_FILE" = s.env c!"YOT_CONFIG_FILE")
    (es : List (Str × CVal)) (hf : fileEntries s = some es) (hd : (es.map (fun e => toLowerStr e.1)).Nodup)
    (t : Setting) (ht : t ∈ settings) (inFile : Option CVal) (hs : FileSays es t.name inFile) :
    setting { s with env := env' } t.name = setting s t.name := by
  rw [setting_eq s es hf hd t ht inFile hs]
  apply setting_eq { s with env := env' } es _ hd t ht inFile hs
  rw [← hf]
  unfold fileEntries
  simp only [hc]

/-- **C46** fails: with YOT_STDOUT=true alone, nothing is printed to stdout. -/
theorem C46_counterexample :
    let s : Start := { flags := fun _ => none, env := fun v => if v = c!"YOT_STDOUT" then some c!"true" else none, fileAt := fun _ => none, found := none }
    let t : Setting := ⟨c!"stdout", c!"stdout", c!"YOT_STDOUT", c!"false"⟩
    t ∈ settings ∧ setting s t.name = some (.text c!"false") ∧ documented s t none = .text c!"true" := by
  decide

/-- **C46**: the configuration file is the one asked for by flag, else by variable,
else the one found; one asked for must be readable. -/
theorem C46_config_file (s : Start) : initConfig s = none ↔ fileEntries s = none := by
  constructor
  · intro h
    cases hf : fileEntries s with
    | none => rfl
    | some es =>
      obtain ⟨ov, hi, _⟩ := initConfig_entries s es hf
      rw [hi] at h; cases h
  · intro hf
    unfold fileEntries at hf
    split at hf
    · rename_i c p h
      unfold initConfig
      rw [if_pos (by simp [configFileArg, h])]
      simp [configFileArg, h, hf]
    · rename_i c p h1 h2
      unfold initConfig
      rw [if_pos (by simp [configFileArg, h1, h2])]
      simp [configFileArg, h1, h2, hf]
    · rename_i h1 h2
      have harg : configFileArg s = [] := by
        unfold configFileArg
        cases h3 : s.flags c!"config" with
        | some x =>
          cases x with
          | nil => rfl
          | cons c p => exact absurd h3 (h1 c p)
        | none =>
          cases h4 : s.env c!"YOT_CONFIG_FILE" with
          | none => rfl
          | some x =>
            cases x with
            | nil => rfl
            | cons c p => exact absurd h4 (h2 c p h3)
      split at hf
      · rename_i hb
        unfold initConfig
        rw [if_neg (by rw [harg]; simp), if_pos hb]
      · cases hf

/-- **C46**: which file the setting `configFile` names. -/
theorem C46_config_file_named (s : Start) (h : fileEntries s ≠ none) : setting s c!"configFile" = some (.text ((fileUsed s).getD [])) := by
  cases hf : fileEntries s with
  | none => exact absurd hf h
  | some es =>
    obtain ⟨ov, hi, hov⟩ := initConfig_entries s es hf
    unfold setting
    rw [hi, Option.bind_some]
    unfold Viper.get
    cases hu : fileUsed s with
    | some p =>
      rw [hu] at hov
      subst hov
      rfl
    | none =>
      rw [hu] at hov
      subst hov
      have hfl : assoc (toLowerStr c!"configFile") (bindEnvs (flagsBound s)).pflags =
          some (s.flags c!"config", (s.env c!"YOT_CONFIG_FILE").getD []) := rfl
      have he : assoc (toLowerStr c!"configFile") (bindEnvs (flagsBound s)).env = none := rfl
      have hd : assoc (toLowerStr c!"configFile") (bindEnvs (flagsBound s)).defaults = none := rfl
      have hes : es = [] ∧ (s.flags c!"config").getD ((s.env c!"YOT_CONFIG_FILE").getD []) = [] := by
        unfold fileUsed at hu
        unfold fileEntries at hf
        split at hu
        · cases hu
        · cases hu
        · rename_i h1 h2
          rw [Option.map_eq_none_iff] at hu
          split at hf
          · rename_i c p h3; exact absurd h3 (h1 c p)
          · rename_i c p h3 h4; exact absurd h4 (h2 c p h3)
          · rw [hu] at hf
            split at hf
            · cases hf
            · refine ⟨by simpa using hf.symm, ?_⟩
              cases h3 : s.flags c!"config" with
              | some x =>
                cases x with
                | nil => rfl
                | cons c p => exact absurd h3 (h1 c p)
              | none =>
                cases h4 : s.env c!"YOT_CONFIG_FILE" with
                | none => rfl
                | some x =>
                  cases x with
                  | nil => rfl
                  | cons c p => exact absurd h4 (h2 c p h3)
      obtain ⟨rfl, hg⟩ := hes
      simp only [hfl, he, hd]
      cases h3 : s.flags c!"config" with
      | some x => rw [h3] at hg; simp only [Option.getD_some] at hg; subst hg; rfl
      | none => rw [h3] at hg; simp only [Option.getD_none] at hg; rw [hg]; rfl

example :
    let es : List (Str × CVal) := [(c!"STDOUT", .bool true), (c!"indentLevel", .int 4), (c!"outputStyle", .list [c!"flow"])]
    let s : Start := { flags := fun f => if f = c!"indent-level" then some c!"8" else none, env := fun _ => none, fileAt := fun _ => none, found := some (c!"./yot.config", es) }
    fileEntries s = some es ∧ (es.map (fun e => toLowerStr e.1)).Nodup ∧
      setting s c!"stdout" = some (.bool true) ∧ setting s c!"indentLevel" = some (.text c!"8") ∧ setting s c!"logLevel" = some (.text c!"warning") ∧
      setting s c!"outputStyle" = some (.list [c!"flow"]) := by
  decide

/-- **C46**: the default log level is `warning` (docs/sections/configFile.md says `error`): without a
flag, and nothing about it in the configuration file, for every environment. -/
theorem C46_default_level (s : Start) (es : List (Str × CVal)) (hf : fileEntries s = some es)
    (hd : (es.map (fun e => toLowerStr e.1)).Nodup) (hfl : s.flags c!"log-level" = none) (hs : FileSays es c!"logLevel" none) :
    setting s c!"logLevel" = some (.text c!"warning") := by
  have h := C46_variable_ignored s (fun v => if v = c!"YOT_CONFIG_FILE" then s.env v else none) (by simp) es hf hd
    ⟨c!"logLevel", c!"log-level", c!"YOT_LOG_LEVEL", c!"warning"⟩ (by decide) none hs
  rw [← h]
  have hf' : fileEntries { s with env := fun v => if v = c!"YOT_CONFIG_FILE" then s.env v else none } = some es := by
    rw [← hf]
    unfold fileEntries
    simp
  rw [C46_precedence_partial _ es hf' hd _ (by decide) none hs (Or.inr (Or.inl (by simp)))]
  unfold documented
  rw [show ({ s with env := fun v => if v = c!"YOT_CONFIG_FILE" then s.env v else none } : Start).flags c!"log-level" = none from hfl]
  simp

end Yot
