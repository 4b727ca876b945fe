import Verif.Props.Process
import Verif.Props.Output
import Mathlib.Data.List.TakeWhile
/-
C68: templates and values files.  C69: settings reach the run.  C70: the `env` command.
-/
namespace Yot
open Spec

/-! ### C68 -/

/-- **C68** Without values files the instructions are the text of the file, or of standard input
for `-`, as it is: whatever it contains, it is not a template. -/
theorem C68_verbatim (M : Machine) (h : M.valueFiles = none) (t : Str) :
    M.instructionsText = .ok t ↔ (if M.instructionsFile = ['-'] then M.stdinText else M.disk (M.locate M.instructionsFile)) = some t := by
  rw [instructionsText_iff]
  unfold InstructionsTextIs
  simp only [h, Machine.stream, true_and, reduceCtorEq, false_and, exists_false, or_false]

/-- **C68** (partial) With values files, holding the values `v`, `vs`, the instructions are what the
template in the file gives for the values merged in the order of the files (C45). Missing:
markers and aliases in later values files; functions other than those built into
Go templates (`C68_sprig_refused`); the template on standard input (`C68_stdin_not_read`). -/
theorem C68_template_partial (M : Machine) (f : Str) (fs : List Str) (hv : M.valueFiles = some (f :: fs)) (v : Val) (vs : List Val)
    (h1 : ∃ x d, M.stream f = some x ∧ M.parse x = some d ∧ HoldsValues d v)
    (h2 : List.Forall₂ (fun f v => ∃ x d, M.stream f = some x ∧ M.parse x = some d ∧ HoldsValues d v ∧ v.NoMarkers) fs vs)
    (file : Str) (hf : M.disk (M.locate M.instructionsFile) = some file) (hw : M.templates.wellFormed file = true)
    (hc : ∀ g ∈ M.templates.calls file, g ∈ M.templates.builtin) :
    ∃ r, HoldsValues r (vs.foldl deepMerge v) ∧
      ∀ t, M.instructionsText = .ok t ↔ M.templates.exec file (some r) = some t := by
  obtain ⟨x, d, hx, hd, hdv⟩ := h1
  have : ∃ ds, List.Forall₂ (fun f n => ∃ x, M.stream f = some x ∧ M.parse x = some n) fs ds ∧
      List.Forall₂ (fun d v => HoldsValues d v ∧ v.NoMarkers) ds vs := by
    clear hv
    induction h2 with
    | nil => exact ⟨[], .nil, .nil⟩
    | cons h _ ih =>
      obtain ⟨x, d, h1, h2, h3, h4⟩ := h
      obtain ⟨ds, i1, i2⟩ := ih
      exact ⟨d :: ds, .cons ⟨x, h1, h2⟩ i1, .cons ⟨h3, h4⟩ i2⟩
  obtain ⟨ds, h3, h4⟩ := this
  obtain ⟨r, hr, hrv⟩ := C45_deep_merge_partial M.sed d v ds vs hdv h4
  refine ⟨r, hrv, fun t => ?_⟩
  have hns : M.valueNodes (f :: fs) = some (d :: ds) := (valueNodes_iff M _ _).2 (.cons ⟨x, hx, hd⟩ h3)
  unfold Machine.instructionsText
  simp only [hv, hns, hr, hf, Option.bind_some, Templates.render, hw, Bool.true_and, List.all_eq_true, decide_eq_true_eq]
  rw [if_pos hc]
  cases M.templates.exec file (some r) <;> simp

theorem no_text_no_instructions {M : Machine} (hi : M.instructionsFile ≠ []) (h : ∀ t, M.instructionsText ≠ .ok t) :
    ∀ i, M.instructions ≠ .ok i := by
  intro i hc
  unfold Machine.instructions at hc
  rw [if_neg hi] at hc
  split at hc
  · cases hc
  · cases hc
  · rename_i t ht
    exact h t ht

/-- **C68** fails for Sprig's functions, documented since v0.5.0: a template calling any
function that is not built into Go templates is refused, and nothing is written. -/
theorem C68_sprig_refused (M : Machine) (hi : M.instructionsFile ≠ []) (fs : List Str) (hv : M.valueFiles = some fs) (file : Str)
    (hf : M.disk (M.locate M.instructionsFile) = some file) (f : Str) (hc : f ∈ M.templates.calls file) (hb : f ∉ M.templates.builtin)
    (e : Exit) (log : List Out) (he : M.Ends e log) : e ≠ .success ∧ log = [] := by
  refine nothing_written M (.inr (no_text_no_instructions hi ?_)) e log he
  intro t ht
  rw [instructionsText_iff] at ht
  rcases ht with ⟨h, _⟩ | ⟨_, _, _, file', _, _, _, h1, _, h2, _⟩
  · rw [hv] at h; cases h
  · rw [hf] at h1
    cases h1
    exact hb (h2 f hc)

/-- **C68** fails for `-i -` with values files: standard input is not read, but a file
named `-`. -/
theorem C68_stdin_not_read (M : Machine) (hi : M.instructionsFile = ['-']) (fs : List Str) (hv : M.valueFiles = some fs)
    (hd : M.disk (M.locate ['-']) = none) (e : Exit) (log : List Out) (he : M.Ends e log) : e ≠ .success ∧ log = [] := by
  refine nothing_written M (.inr (no_text_no_instructions (by rw [hi]; simp) ?_)) e log he
  intro t ht
  rw [instructionsText_iff] at ht
  rcases ht with ⟨h, _⟩ | ⟨_, _, _, file', _, _, _, h1, _⟩
  · rw [hv] at h; cases h
  · rw [hi, hd] at h1; cases h1

/-- **C68** A values file that cannot be read or parsed is an error; nothing is written. -/
theorem C68_bad_values (M : Machine) (hi : M.instructionsFile ≠ []) (fs : List Str) (hv : M.valueFiles = some fs) (f : Str) (hf : f ∈ fs)
    (hb : ∀ x, M.stream f = some x → M.parse x = none) (e : Exit) (log : List Out) (he : M.Ends e log) :
    e ≠ .success ∧ log = [] := by
  refine nothing_written M (.inr (no_text_no_instructions hi ?_)) e log he
  intro t ht
  rw [instructionsText_iff] at ht
  rcases ht with ⟨h, _⟩ | ⟨fs', ns, _, file', h, h1, hx⟩
  · rw [hv] at h; cases h
  · rw [hv] at h
    cases h
    clear hv hx
    induction h1 with
    | nil => cases hf
    | cons h _ ih =>
      obtain ⟨x, h1, h2⟩ := h
      rcases List.mem_cons.1 hf with rfl | hf
      · rw [hb x h1] at h2; cases h2
      · exact ih hf

namespace Ex

/-- `yot -i t.yaml -f v.yaml`, where `t.yaml` is `T`, and calls no function, or `upper`. -/
def withValues (calls : List Str) : Machine :=
  { machine with
    instructionsFile := c!"t.yaml"
    valueFiles := some [c!"v.yaml", c!"w.yaml"]
    disk := fun l => if l = c!"/w/t.yaml" then some c!"T" else if l = c!"/w/v.yaml" then some c!"V" else if l = c!"/w/w.yaml" then some c!"W" else none
    parse := fun t => if t = c!"V" then some (dc (sc c!"old")) else if t = c!"W" then some (dc (sc c!"new")) else none
    templates := { wellFormed := fun _ => true, calls := fun _ => calls, builtin := [c!"len"], exec := fun t v => some (t ++ (v.map (fun n => n.content.flatMap (fun c => c.hd.value))).getD []) } }

example : (withValues [c!"len"]).instructionsText = .ok c!"Tnew" := by decide
example : (withValues [c!"upper"]).instructionsText = .err () := by decide

/-- The hypotheses of `C68_template_partial`. -/
example : ∃ r, HoldsValues r (.scalar c!"!!str" c!"new") ∧ ∀ t, (withValues [c!"len"]).instructionsText = .ok t ↔
    (withValues [c!"len"]).templates.exec c!"T" (some r) = some t :=
  C68_template_partial (withValues [c!"len"]) c!"v.yaml" [c!"w.yaml"] rfl (.scalar c!"!!str" c!"old") [.scalar c!"!!str" c!"new"]
    ⟨c!"V", _, rfl, rfl, rfl, sc c!"old", rfl, rfl⟩ (.cons ⟨c!"W", _, rfl, rfl, ⟨rfl, sc c!"new", rfl, rfl⟩, by unfold Val.NoMarkers; decide⟩ .nil)
    c!"T" rfl rfl (by decide)

end Ex

/-! ### C69 -/

theorem words_blank {c : Char} (hb : Blank c) {s : Str} {ws : List Str} (h : Words s ws) : Words (c :: s) ws := by
  cases h with
  | nil b hb' => exact .nil (c :: s) (by simpa using ⟨hb, hb'⟩)
  | cons b w s' ws hb' hw' h2 h3 h4 => exact .cons (c :: b) w s' ws (by simpa using ⟨hb, hb'⟩) hw' h2 h3 h4

theorem words_fields (s : Str) : Words s (fields s) := by
  have key : ∀ (s w : Str), (∀ c ∈ w, ¬ Blank c) → Words (w ++ s) (fieldsFrom w s) := by
    intro s
    induction s with
    | nil =>
      intro w hw
      rw [fieldsFrom, List.append_nil]
      split
      · rename_i h
        rw [h]
        exact .nil [] (by simp)
      · rename_i h
        have := Words.cons [] w [] [] (by simp) h hw (.inl rfl) (.nil [] (by simp))
        simpa using this
    | cons c s ih =>
      intro w hw
      rw [fieldsFrom]
      by_cases hc : isBlank c = true
      · rw [if_pos hc]
        have hb : Blank c := by
          unfold isBlank at hc
          simp only [Bool.or_eq_true, decide_eq_true_eq] at hc
          unfold Blank
          simp only [List.mem_cons, List.not_mem_nil, or_false]
          tauto
        have h1 := ih [] (by simp)
        rw [List.nil_append] at h1
        split
        · rename_i h
          rw [h, List.nil_append]
          exact words_blank hb h1
        · rename_i h
          have := Words.cons [] w (c :: s) _ (by simp) h hw (.inr ⟨c, s, rfl, hb⟩) (words_blank hb h1)
          simpa using this
      · rw [if_neg hc]
        have := ih (w ++ [c]) (by
          intro d hd
          rcases List.mem_append.1 hd with hd | hd
          · exact hw d hd
          · simp only [List.mem_singleton] at hd
            subst hd
            unfold Blank
            unfold isBlank at hc
            simp only [Bool.or_eq_true, decide_eq_true_eq] at hc
            simp only [List.mem_cons, List.not_mem_nil, or_false]
            tauto)
        simpa using this
  exact key s [] (by simp)

theorem configured_value {M : Machine} {inFile : Setting → Option CVal} (h : Configured M.start inFile) (t : Setting) (ht : t ∈ settings) :
    setting M.start t.name = some (documented M.start t (inFile t)) := by
  obtain ⟨es, h1, h2, h3⟩ := h
  exact C46_precedence_partial M.start es h1 h2 t ht (inFile t) (h3 t ht).1 (h3 t ht).2

theorem meansOn_iff (v : CVal) : v.toBool = true ↔ MeansOn v := by
  cases v <;> simp [CVal.toBool, MeansOn, castBool]

theorem meansWords_words (v : CVal) : MeansWords v v.words := by
  cases v with
  | text t => exact .text (words_fields t)
  | bool b => exact .bool b
  | int i => exact .int i
  | list l => exact .list l
  | other p => exact .other p

theorem meansText_str (v : CVal) : MeansText v v.str := by
  cases v with
  | text t => exact .text t
  | bool b => exact .bool b
  | int i => exact .int i
  | list l => exact .list l
  | other p => exact .other p

theorem meansInt_toInt (int : Str → Int) (v : CVal) : MeansInt int v (v.toInt int) := by
  cases v with
  | text t => exact .text t
  | bool b => cases b
              · exact .off
              · exact .on
  | int i => exact .int i
  | list l => exact .list l
  | other p => exact .other p

theorem meansInt_unique {int : Str → Int} {v : CVal} {i : Int} (h : MeansInt int v i) : v.toInt int = i := by
  cases h <;> rfl

theorem joinWith_intercalate (l : List Str) : joinWith ' ' l = List.intercalate [' '] l := by
  induction l with
  | nil => rfl
  | cons a l ih =>
    cases l with
    | nil => simp [joinWith, List.intercalate]
    | cons b l =>
      rw [joinWith, ih]
      · simp [List.intercalate]

theorem shown_printed (v : CVal) : v.shown = asPrinted v := by
  cases v with
  | list l => simp [CVal.shown, asPrinted, joinWith_intercalate]
  | _ => rfl

/-- **C69** (partial) Each setting reaches what it is for: its documented value (C46) is the output
directory, the style list, the indentation, the default for `onMissing`, whether comments
go, whether output goes to standard output, the log level. Missing: the variables,
which have no effect (C46). -/
theorem C69_settings_partial (M : Machine) (inFile : Setting → Option CVal) (h : Configured M.start inFile) :
    let value := valueOf M.start inFile
    MeansText (value c!"outputDirectory") (settingsOf M).outDir ∧
    MeansWords (value c!"outputStyle") (settingsOf M).style ∧
    MeansText (value c!"defaultOnMissingAction") (settingsOf M).dflt ∧
    ((settingsOf M).removeComments = true ↔ MeansOn (value c!"removeComments")) ∧
    (M.stdout = true ↔ MeansOn (value c!"stdout")) ∧
    (∀ i, MeansInt M.int (value c!"indentLevel") i → 0 ≤ i → (settingsOf M).emit = M.encode i) ∧
    (StartsWell M → ∃ t, MeansText (value c!"logLevel") t ∧
      NamesLevel t) := by
  intro value
  have key := configured_value h
  have h1 : setting M.start c!"outputDirectory" = some (value c!"outputDirectory") := key ⟨c!"outputDirectory", c!"output-directory", c!"YOT_OUTPUT_DIRECTORY", c!"./output"⟩ (by decide)
  have h2 : setting M.start c!"outputStyle" = some (value c!"outputStyle") := key ⟨c!"outputStyle", c!"output-style", c!"YOT_OUTPUT_STYLE", c!"[normal]"⟩ (by decide)
  have h3 : setting M.start c!"defaultOnMissingAction" = some (value c!"defaultOnMissingAction") :=
    key ⟨c!"defaultOnMissingAction", c!"default-on-missing-action", c!"YOT_DEFAULT_ON_MISSING_ACTION", c!"ignore"⟩ (by decide)
  have h4 : setting M.start c!"removeComments" = some (value c!"removeComments") := key ⟨c!"removeComments", c!"remove-comments", c!"YOT_REMOVE_COMMENTS", c!"false"⟩ (by decide)
  have h5 : setting M.start c!"stdout" = some (value c!"stdout") := key ⟨c!"stdout", c!"stdout", c!"YOT_STDOUT", c!"false"⟩ (by decide)
  have h6 : setting M.start c!"indentLevel" = some (value c!"indentLevel") := key ⟨c!"indentLevel", c!"indent-level", c!"YOT_INDENT_LEVEL", c!"2"⟩ (by decide)
  have h7 : setting M.start c!"logLevel" = some (value c!"logLevel") := key ⟨c!"logLevel", c!"log-level", c!"YOT_LOG_LEVEL", c!"warning"⟩ (by decide)
  refine ⟨?_, ?_, ?_, ?_, ?_, ?_, ?_⟩
  · show MeansText _ (((setting M.start _).map CVal.str).getD [])
    rw [h1]
    exact meansText_str _
  · show MeansWords _ (((setting M.start _).map CVal.words).getD [])
    rw [h2]
    exact meansWords_words _
  · show MeansText _ (((setting M.start _).map CVal.str).getD [])
    rw [h3]
    exact meansText_str _
  · show ((setting M.start _).map CVal.toBool).getD false = true ↔ _
    rw [h4]
    exact meansOn_iff _
  · show ((setting M.start _).map CVal.toBool).getD false = true ↔ _
    rw [h5]
    exact meansOn_iff _
  · intro i hi h0
    have hi' : M.indent = i := by
      unfold Machine.indent
      rw [h6]
      exact meansInt_unique hi
    show (fun b n => if M.indent < 0 then Res.panic else M.encode M.indent b n) = _
    simp only [hi', if_neg (show ¬ i < 0 by omega)]
  · intro hs
    have := hs.level
    unfold Machine.text at this
    rw [h7] at this
    exact ⟨_, meansText_str _, this⟩

theorem isAbs_dirOf (p : Str) (hp : isAbs p = true) : isAbs (dirOf p) = true := by
  unfold dirOf
  rw [isAbs_clean]
  obtain ⟨s, rfl⟩ : ∃ s, p = '/' :: s := by
    cases p with
    | nil => cases hp
    | cons c s =>
      unfold isAbs at hp
      simp only [List.head?_cons, Option.some.injEq, decide_eq_true_eq] at hp
      exact ⟨s, by rw [hp]⟩
  obtain ⟨k, hk⟩ : ∃ k, uptoSlash ('/' :: s) ++ k = '/' :: s := by
    have := List.dropWhile_suffix (fun c : Char => decide (c ≠ '/')) (l := ('/' :: s).reverse)
    obtain ⟨k, hk⟩ := this
    refine ⟨k.reverse, ?_⟩
    have := congrArg List.reverse hk
    rwa [List.reverse_append, List.reverse_reverse] at this
  cases hu : uptoSlash ('/' :: s) with
  | nil =>
    exfalso
    unfold uptoSlash at hu
    rw [List.reverse_eq_nil_iff, List.dropWhile_eq_nil_iff] at hu
    simpa using hu '/' (by simp)
  | cons c r =>
    rw [hu] at hk
    injection hk with hc _
    rw [hc]
    rfl

/-- **C69** With an instructions file its directory, absolute, is what the paths in it are
relative to. -/
theorem C69_relative_to_instructions (M : Machine) (h : M.instructionsFile ≠ []) (hc : isAbs M.cwd = true) :
    DirKnown (settingsOf M).dir := by
  right
  show isAbs M.dir = true
  unfold Machine.dir
  rw [if_neg h]
  split
  · rename_i ha
    exact isAbs_dirOf _ (by rw [isAbs_clean]; exact ha)
  · exact isAbs_dirOf _ (isAbs_pathJoin _ _ hc)

theorem dirOf_absPath (d : List Str) (b : Str) (hn : ∀ c ∈ d ++ [b], IsName c) : dirOf (absPath (d ++ [b])) = absPath d := by
  have hd : ∀ c ∈ d, IsName c := fun c hc => hn c (by simp [hc])
  have hb : '/' ∉ b := (hn b (by simp)).2.2.2
  unfold dirOf
  rw [absPath_concat, uptoSlash_concat _ _ hb]
  by_cases h0 : d = []
  · subst h0; decide
  · rw [if_neg h0]
    have ha : isAbs (absPath d ++ ['/']) = true := rfl
    have hc := clean_absPath d hd
    rw [clean_eq] at hc ⊢
    rw [if_pos ha]
    rw [if_pos (show isAbs (absPath d) = true from rfl)] at hc
    have hst : stackOf (absPath d ++ ['/']) = stackOf (absPath d) := by
      unfold stackOf
      rw [ha, show isAbs (absPath d) = true from rfl, splitOn_append, List.foldl_append]
      simp [splitOn, cleanStep]
    rw [hst, hc]

/-- **C69** The directory that paths in the instructions are relative to is the one the
instructions file lies in. -/
theorem C69_instructions_directory (M : Machine) (hc : isAbs M.cwd = true) (h : M.instructionsFile ≠ []) (d : List Str) (b : Str)
    (hn : ∀ c ∈ d ++ [b], IsName c) (hl : M.locate M.instructionsFile = absPath (d ++ [b])) : (settingsOf M).dir = absPath d := by
  show M.dir = absPath d
  unfold Machine.dir
  rw [if_neg h]
  unfold Machine.locate at hl
  rw [← dirOf_absPath d b hn]
  congr 1
  split
  · rename_i ha
    rwa [if_pos ha] at hl
  · rename_i ha
    rw [if_neg ha] at hl
    rw [← hl]
    have hcw : M.cwd ≠ [] := by rintro he; rw [he] at hc; cases hc
    unfold pathJoin
    simp [h, hcw, joinWith]

/-- **C69** Without an instructions file it is what the configuration file gives for
`instructionsDir`, usually nothing: the working directory. -/
theorem C69_no_instructions_directory (M : Machine) (h : M.instructionsFile = []) (es : List (Str × CVal))
    (hf : fileEntries M.start = some es) (hd : (es.map (fun e => toLowerStr e.1)).Nodup) (inFile : Option CVal)
    (hs : FileSays es c!"instructionsDir" inFile) : MeansText (inFile.getD (.text [])) (settingsOf M).dir := by
  show MeansText _ M.dir
  unfold Machine.dir Machine.text setting
  rw [if_pos h]
  obtain ⟨ov, hi, hov⟩ := initConfig_entries M.start es hf
  rw [hi, Option.bind_some]
  unfold Viper.get
  have ha := assoc_map_lower es c!"instructionsDir" inFile hd hs
  have h1 : assoc (toLowerStr c!"instructionsDir") (bindEnvs (flagsBound M.start)).pflags = none := rfl
  have h2 : assoc (toLowerStr c!"instructionsDir") (bindEnvs (flagsBound M.start)).env = none := rfl
  have h3 : assoc (toLowerStr c!"instructionsDir") (bindEnvs (flagsBound M.start)).defaults = none := rfl
  have h4 : assoc (toLowerStr c!"instructionsDir") ov = none := by
    rw [hov]
    cases fileUsed M.start with
    | none => rfl
    | some p => rfl
  simp only [h1, h2, h3, h4, ha]
  cases inFile with
  | none => exact .text []
  | some v => exact meansText_str v

/-- **C69** fails for a log level in the configuration file that is none of the six names (but
is accepted as a flag, such as `err`): the process crashes. -/
theorem C69_bad_level_crashes (M : Machine) (h1 : M.flagsParse = true) (h2 : ∃ qs, setQueryFlags M.D M.cli.queries [] = some qs)
    (h3 : ∃ a, M.cli.readAction = some a) (h4 : fileEntries M.start ≠ none)
    (h5 : ¬ NamesLevel (M.text c!"logLevel"))
    (e : Exit) (log : List Out) (he : M.Ends e log) : e = .crash ∧ log = [] := by
  have : M.startFails = some .crash := by
    obtain ⟨qs, h2⟩ := h2
    obtain ⟨a, h3⟩ := h3
    have h4 : initConfig M.start ≠ none := fun hc => h4 ((C46_config_file M.start).1 hc)
    obtain ⟨v, hv⟩ := Option.ne_none_iff_exists'.1 h4
    have h5 : isLevel (M.text c!"logLevel") = false := by rw [← Bool.not_eq_true, isLevel_iff]; exact h5
    unfold Machine.startFails
    simp [h1, h2, h3, hv, h5]
  cases he with
  | start e h => rw [this] at h; cases h; exact ⟨rfl, rfl⟩
  | instructionsFail h _ => rw [this] at h; cases h
  | instructionsFailCrash _ _ h _ _ _ _ _ => rw [this] at h; cases h
  | instructionsCrash h _ => rw [this] at h; cases h
  | nullFile i h _ _ _ => rw [this] at h; cases h
  | beforeNull i h _ _ _ => rw [this] at h; cases h
  | badValue i _ _ _ _ h _ _ _ _ => rw [this] at h; cases h
  | unreadable i _ _ _ _ h _ _ _ => rw [this] at h; cases h
  | ran i _ _ _ _ _ s r h _ _ _ _ _ _ => rw [this] at h; cases h
  | crashed i _ _ _ _ _ s h _ _ _ _ _ _ => rw [this] at h; cases h

/-- **C69** With a negative indentation nothing is ever written. -/
theorem C69_negative_indent (M : Machine) (hm : Environment (settingsOf M)) (h : M.indent < 0)
    (e : Exit) (log : List Out) (he : M.Ends e log) : log = [] := by
  by_cases ha : ∃ T, Asks M T
  case neg => exact (C66_nothing_written M (.inr ha) e log he).2
  obtain ⟨T, ha⟩ := ha
  have no : ∀ p t, ¬ Produces M T p (some t) := by
    rintro p t ⟨docs, _, h2⟩
    have : (settingsOf M).emit = fun _ _ => .panic := by
      show (fun b n => if M.indent < 0 then Res.panic else M.encode M.indent b n) = _
      simp only [if_pos h]
    rw [this] at h2
    unfold rendering encodeNodes at h2
    have loop : ∀ (style : Nat) (ns : List Node) (i : Nat) (w : Bool),
        encodeLoop (fun _ _ => .panic) style i w ns = .ok [] ∨ encodeLoop (fun _ _ => .panic) style i w ns = .panic := by
      intro style ns
      induction ns with
      | nil => intro i w; exact .inl rfl
      | cons n ns ih =>
        intro i w
        unfold encodeLoop
        split
        · exact ih _ _
        · exact .inr rfl
    rcases loop (getStyle (getStyleFromConfig (settingsOf M).style)) docs 0 false with h3 | h3 <;> rw [h3] at h2 <;> cases h2
  rcases ends_cases ha hm he with ⟨_, h2⟩ | ⟨_, _, _, h2⟩ | ⟨_, _, s, ⟨g⟩, rfl, _⟩
  · exact h2
  · exact h2
  · cases hl : s.log with
    | nil => rfl
    | cons o l =>
      obtain ⟨p, _, _, hp⟩ := g.results hm (g.readable ha hm) o (by rw [hl]; simp)
      exact absurd hp (no p _)

/-- The hypotheses of `C69_settings_partial`: a flag, and a file with one setting. -/
example : Configured
    { flags := fun f => if f = c!"output-directory" then some c!"/o" else none, env := fun _ => none, fileAt := fun _ => none,
      found := some (c!"yot.config", [(c!"IndentLevel", .int 4)]) }
    (fun t => if t.name = c!"indentLevel" then some (.int 4) else none) := by
  refine ⟨[(c!"IndentLevel", .int 4)], rfl, by decide, ?_⟩
  intro t ht
  simp only [settings, List.mem_cons, List.not_mem_nil, or_false] at ht
  refine ⟨?_, .inr (.inl rfl)⟩
  rcases ht with rfl | rfl | rfl | rfl | rfl | rfl | rfl
  case inr.inl => exact ⟨c!"IndentLevel", by decide, by unfold SameName; decide⟩
  all_goals
    intro k x hk
    simp only [List.mem_cons, List.not_mem_nil, or_false] at hk
    cases hk
    unfold SameName
    decide

/-- The hypotheses of `C69_bad_level_crashes`: `logLevel: err` in the configuration file. -/
example : ¬ NamesLevel (({ Ex.machine with start := { Ex.machine.start with found := some (c!"yot.config", [(c!"logLevel", .text c!"err")]) } } : Machine).text c!"logLevel") := by
  rw [← isLevel_iff]; decide

/-! ### C70 -/

theorem env_started {s : Start} (h : fileEntries s ≠ none) : (initConfig s).isNone = false := by
  cases hi : initConfig s with
  | none => exact absurd ((C46_config_file s).1 hi) h
  | some v => rfl

/-- The variables and the settings they are for. -/
theorem envMap_eq : envMap.Perm ((c!"YOT_CONFIG_FILE", c!"configFile") :: settings.map (fun t => (t.var, t.name))) := by
  rw [← List.isPerm_iff]
  decide

/-- **C70** `yot env` prints one line for each variable, in any order, with the value that the setting
has in a run (C46). -/
theorem C70_all (s : Start) (hf : fileEntries s ≠ none) (order : List (Str × Str)) (h : order.Perm envMap) :
    ∃ lines : List Str, envCommand s order [] = some lines.flatten ∧
      lines.Perm (((c!"YOT_CONFIG_FILE", (fileUsed s).getD []) :: settings.map (fun t => (t.var, ((setting s t.name).map asPrinted).getD c!"<nil>"))).map
        (fun p => p.1 ++ c!"=\"" ++ p.2 ++ c!"\"\n")) := by
  refine ⟨order.map (fun p => envLine s p.1 p.2), ?_, ?_⟩
  · unfold envCommand
    rw [env_started hf]
    show some _ = some _
    rw [List.flatMap_def]
  · have := (h.trans envMap_eq).map (fun p : Str × Str => envLine s p.1 p.2)
    refine this.trans (.of_eq ?_)
    simp only [List.map_cons, List.map_map]
    congr 1
    · unfold envLine
      rw [C46_config_file_named s hf]
      rfl
    · refine List.map_congr_left (fun t _ => ?_)
      show envLine s t.var t.name = _
      unfold envLine
      rw [show CVal.shown = asPrinted from funext shown_printed]
      rfl

/-- **C70** (partial) The values are the documented ones, unless a variable is set. -/
theorem C70_all_partial (s : Start) (inFile : Setting → Option CVal) (h : Configured s inFile) (order : List (Str × Str)) (ho : order.Perm envMap) :
    ∃ lines : List Str, envCommand s order [] = some lines.flatten ∧
      lines.Perm (((c!"YOT_CONFIG_FILE", (fileUsed s).getD []) :: settings.map (fun t => (t.var, asPrinted (documented s t (inFile t))))).map
        (fun p => p.1 ++ c!"=\"" ++ p.2 ++ c!"\"\n")) := by
  obtain ⟨es, h1, h2, h3⟩ := h
  obtain ⟨lines, q1, q2⟩ := C70_all s (by rw [h1]; simp) order ho
  refine ⟨lines, q1, q2.trans (.of_eq ?_)⟩
  congr 2
  refine List.map_congr_left (fun t ht => ?_)
  rw [C46_precedence_partial s es h1 h2 t ht (inFile t) (h3 t ht).1 (h3 t ht).2]
  rfl

/-- **C70** The configuration file in use. -/
theorem C70_config_file (s : Start) (hf : fileEntries s ≠ none) (order : List (Str × Str)) :
    envCommand s order [c!"YOT_CONFIG_FILE"] = some (c!"YOT_CONFIG_FILE=\"" ++ (fileUsed s).getD [] ++ c!"\"\n") := by
  unfold envCommand
  rw [env_started hf]
  show some (envLine s c!"YOT_CONFIG_FILE" c!"configFile") = _
  unfold envLine
  rw [C46_config_file_named s hf]
  rfl

/-- **C70** (partial) The value is the documented one, unless the variable itself is set. -/
theorem C70_documented_partial (s : Start) (order : List (Str × Str)) (inFile : Setting → Option CVal) (h : Configured s inFile)
    (t : Setting) (ht : t ∈ settings) :
    envCommand s order [t.var] = some (t.var ++ c!"=\"" ++ asPrinted (documented s t (inFile t)) ++ c!"\"\n") := by
  obtain ⟨es, h1, h2, h3⟩ := h
  have := C46_precedence_partial s es h1 h2 t ht (inFile t) (h3 t ht).1 (h3 t ht).2
  have hv : (assoc t.var envMap).getD [] = t.name := by
    simp only [settings, List.mem_cons, List.not_mem_nil, or_false] at ht
    rcases ht with rfl | rfl | rfl | rfl | rfl | rfl | rfl <;> decide
  unfold envCommand
  rw [env_started (by rw [h1]; simp)]
  show some (envLine s t.var _) = _
  rw [hv]
  unfold envLine
  rw [this, show CVal.shown = asPrinted from funext shown_printed]
  rfl

/-- **C70** An unknown name is not refused: it is printed with the value `<nil>`. -/
theorem C70_unknown (s : Start) (order : List (Str × Str)) (name : Str) (h : name ∉ c!"YOT_CONFIG_FILE" :: settings.map Setting.var)
    (es : List (Str × CVal)) (hf : fileEntries s = some es) (hs : ∀ e ∈ es, e.1 ≠ []) :
    envCommand s order [name] = some (name ++ c!"=\"<nil>\"\n") := by
  have hn : assoc name envMap = none := by
    unfold assoc
    rw [Option.map_eq_none_iff, List.find?_eq_none]
    intro p hp hc
    have hc : p.1 = name := by simpa using hc
    rcases List.mem_cons.1 (envMap_eq.mem_iff.1 hp) with rfl | hp
    · exact h (by rw [← hc]; simp)
    · obtain ⟨t, ht, rfl⟩ := List.mem_map.1 hp
      exact h (by rw [← hc]; exact List.mem_cons_of_mem _ (List.mem_map.2 ⟨t, ht, rfl⟩))
  have hset : setting s [] = none := by
      obtain ⟨ov, hi, hov⟩ := initConfig_entries s es hf
      have h1 : assoc [] (es.map (fun e => (toLowerStr e.1, e.2))) = none := by
        unfold assoc
        rw [Option.map_eq_none_iff, List.find?_eq_none]
        intro p hp hc
        obtain ⟨e, he, rfl⟩ := List.mem_map.1 hp
        have hc : toLowerStr e.1 = [] := by simpa using hc
        apply hs e he
        unfold toLowerStr at hc
        exact List.map_eq_nil_iff.1 hc
      have h2 : assoc [] ov = none := by
        rw [hov]
        cases fileUsed s with
        | none => rfl
        | some p => rfl
      have h3 : assoc [] (bindEnvs (flagsBound s)).pflags = none := by rfl
      have h4 : assoc [] (bindEnvs (flagsBound s)).env = none := by rfl
      have h5 : assoc [] (bindEnvs (flagsBound s)).defaults = none := by rfl
      unfold setting
      rw [hi, Option.bind_some]
      unfold Viper.get
      have hl : toLowerStr [] = [] := rfl
      simp only [hl, h1, h2, h3, h4, h5]
      rfl
  unfold envCommand
  rw [env_started (by rw [hf]; simp)]
  show some (envLine s name _) = _
  rw [hn]
  unfold envLine
  rw [Option.getD_none, hset]
  simp

example : envCommand { flags := fun f => if f = c!"stdout" then some c!"true" else none, env := fun _ => none, fileAt := fun _ => none, found := none }
    envMap [c!"YOT_STDOUT"] = some c!"YOT_STDOUT=\"true\"\n" := by decide

end Yot
