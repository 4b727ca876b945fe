import Verif.Model.Commands
import Verif.Props.Args
import Verif.Props.Startup
/-
C78: the other commands.
-/
namespace Yot
open Spec

/-- A word that is no flag. -/
def Spec.Word (w : Str) : Prop := w.head? ≠ some '-'

theorem word_stays {w : Str} (hw : Word w) (as : List Str) : parseSub (w :: as) = (parseSub as).map (fun x => (x.1, w :: x.2)) := by
  rw [parseSub]
  · rintro rfl; simp [Word] at hw
  · rintro n rfl; simp [Word] at hw
  · rintro c r rfl; simp [Word] at hw

theorem words_stay {ps : List Str} (hp : ∀ w ∈ ps, Word w) (as : List Str) :
    parseSub (ps ++ as) = (parseSub as).map (fun x => (x.1, ps ++ x.2)) := by
  induction ps with
  | nil => simp
  | cons w ps ih =>
    rw [List.cons_append, word_stays (hp w (by simp)), ih (fun x hx => hp x (by simp [hx]))]
    simp [Function.comp_def]

theorem words_parsed {ps : List Str} (hp : ∀ w ∈ ps, Word w) : parseSub ps = some ([], ps) := by
  have := words_stay hp []
  rw [List.append_nil] at this
  rw [this]
  simp [parseSub]

/-- The command is found. -/
theorem command_word {cmd : Str} (hc : cmd ∈ [c!"env", c!"completion"]) (l : List (Str × Str)) (args : List Str) (h : Line l args)
    (M : Machine) (X : Scripts) (order : List (Str × Str)) (rest : List Str) :
    M.command X order (args ++ cmd :: rest) = some (M.runCommand X order cmd ((args ++ cmd :: rest).erase cmd)) := by
  have hs : ∃ r, stripFlags (cmd :: rest) = cmd :: r := by
    have hne : cmd ≠ [] := by rintro rfl; revert hc; decide
    have hd : cmd.head? ≠ some '-' := by
      simp only [List.mem_cons, List.not_mem_nil, or_false] at hc
      rcases hc with rfl | rfl <;> decide
    have hn : takesNext cmd = false := by
      simp only [List.mem_cons, List.not_mem_nil, or_false] at hc
      rcases hc with rfl | rfl <;> decide
    have hm : cmd ≠ c!"--" := by rintro rfl; simp at hd
    match rest with
    | [] => exact ⟨[], by simp [stripFlags, hn, hne, hd, hm]⟩
    | [t] => exact ⟨stripFlags [t], by rw [stripFlags.eq_def]; simp [hn, hne, hd, hm]⟩
    | t :: u :: r => exact ⟨stripFlags (t :: u :: r), by rw [stripFlags.eq_def]; simp [hn, hne, hd, hm]⟩
  obtain ⟨r, hr⟩ := hs
  unfold Machine.command
  rw [line_strip h, hr]
  simp only [hc, if_true]

theorem command_first {cmd : Str} (hc : cmd ∈ [c!"env", c!"completion"]) (M : Machine) (X : Scripts) (order : List (Str × Str)) (rest : List Str) :
    M.command X order (cmd :: rest) = some (M.runCommand X order cmd rest) := by
  have := command_word hc [] [] .nil M X order rest
  simpa using this

/-- What the process starts with, but without flags. -/
def Spec.bareStart (M : Machine) : Start := { M.start with flags := fun _ => none }

/-- The process can start without flags: the configuration file in use can be read, and the log
level it has is one of the names. -/
structure Spec.StartsBare (M : Machine) : Prop where
  config : fileEntries (bareStart M) ≠ none
  level : NamesLevel (((setting (bareStart M) c!"logLevel").map CVal.str).getD [])

theorem noFlags_eq (M : Machine) : M.noFlags = bareStart M := rfl

/-- A command with words as arguments. -/
theorem runCommand_words {M : Machine} (hs : StartsBare M) (X : Scripts) (order : List (Str × Str)) (name : Str) {ps : List Str}
    (hp : ∀ w ∈ ps, Word w) : M.runCommand X order name ps =
      if !argsValid name ps then (.failure, [])
      else if name = c!"env" then
        match envCommand (bareStart M) order ps with
        | some t => (.success, t)
        | none => (.failure, [])
      else completions X ps := by
  unfold Machine.runCommand
  rw [noFlags_eq]
  rw [words_parsed hp]
  dsimp only
  have hl : isLevel (((setting (bareStart M) c!"logLevel").map CVal.str).getD []) = true := by
    rw [isLevel_iff]; exact hs.level
  rw [env_started hs.config, hl]
  rfl

/-- **C78** `yot env` prints one line per variable, with the settings a run without flags has. -/
theorem C78_env_all (M : Machine) (hs : StartsBare M) (X : Scripts) (order : List (Str × Str)) (ho : order.Perm envMap) :
    ∃ lines : List Str, M.command X order [c!"env"] = some (.success, lines.flatten) ∧
      lines.Perm (((c!"YOT_CONFIG_FILE", (fileUsed (bareStart M)).getD []) ::
        settings.map (fun t => (t.var, ((setting (bareStart M) t.name).map asPrinted).getD c!"<nil>"))).map (fun p => p.1 ++ c!"=\"" ++ p.2 ++ c!"\"\n")) := by
  obtain ⟨lines, h1, h2⟩ := C70_all (bareStart M) hs.config order ho
  refine ⟨lines, ?_, h2⟩
  rw [command_first (by decide), runCommand_words hs X order _ (by simp), h1]
  rfl

/-- **C78** `yot env NAME` prints the setting of that variable alone. -/
theorem C78_env_one (M : Machine) (hs : StartsBare M) (X : Scripts) (order : List (Str × Str)) (name key : Str)
    (hk : (name, key) ∈ (c!"YOT_CONFIG_FILE", c!"configFile") :: settings.map (fun t => (t.var, t.name))) :
    M.command X order [c!"env", name] = some (.success, name ++ c!"=\"" ++ ((setting (bareStart M) key).map asPrinted).getD c!"<nil>" ++ c!"\"\n") := by
  have hall : ∀ p ∈ (c!"YOT_CONFIG_FILE", c!"configFile") :: settings.map (fun t => (t.var, t.name)),
      p.1.head? ≠ some '-' ∧ (assoc p.1 envMap).getD [] = p.2 := by decide
  obtain ⟨h1, h2⟩ := hall _ hk
  rw [command_first (by decide), runCommand_words hs X order _ (by simpa [Word] using h1)]
  unfold envCommand
  rw [env_started hs.config]
  simp only [argsValid, envLine] at *
  rw [show CVal.shown = asPrinted from funext shown_printed]
  simp [h2]

/-- **C78** The main command's flags cannot be given with these commands, neither before nor after
the command's name: the process fails and prints nothing to standard output. -/
theorem C78_flags_refused (M : Machine) (X : Scripts) (order : List (Str × Str)) (cmd : Str) (hc : cmd ∈ [c!"env", c!"completion"])
    (l : List (Str × Str)) (args : List Str) (h : Line l args) (hne : l ≠ []) (ps rest : List Str) (hp : ∀ w ∈ ps, Word w) :
    M.command X order (args ++ cmd :: rest) = some (.failure, []) ∧
    M.command X order (cmd :: ps ++ args ++ rest) = some (.failure, []) := by
  have hd : cmd.head? ≠ some '-' := by
    simp only [List.mem_cons, List.not_mem_nil, or_false] at hc
    rcases hc with rfl | rfl <;> decide
  -- the first argument of the line is a flag the command does not have
  obtain ⟨a, as, ha, had, hbad⟩ : ∃ a as, args = a :: as ∧ a.head? = some '-' ∧ ∀ r, parseSub (a :: r) = none := by
    have hlong : ∀ n t : Str, (∃ c b, (n, c, b) ∈ documentedFlags) → (t = [] ∨ t.head? = some '=') → ∀ r, parseSub ((c!"--" ++ n ++ t) :: r) = none := by
      rintro n t ⟨c, b, hm⟩ ht r
      have hall : ∀ x ∈ documentedFlags, x.1 ≠ [] ∧ '=' ∉ x.1 ∧ x.1.head? ≠ some '-' ∧ x.1.head? ≠ some '=' ∧ x.1 ≠ c!"help" := by decide
      obtain ⟨h1, h2, h3, h4, h5⟩ := hall _ hm
      dsimp only at h1 h2 h3 h4 h5
      have hsub : subLong (n ++ t) = none := by
        unfold subLong
        have hw : (n ++ t).takeWhile (· ≠ '=') = n := by
          rcases ht with rfl | ht
          · rw [List.append_nil]; exact takeWhile_noEq h2
          · cases t with
            | nil => cases ht
            | cons x r => simp at ht; subst ht; exact (takeWhile_eq h2).1
        split
        · rfl
        · rw [hw, if_neg h5]
      cases n with
      | nil => exact absurd rfl h1
      | cons x n =>
        show parseSub (('-' :: '-' :: (x :: n ++ t)) :: r) = none
        rw [parseSub, hsub]
        simp
    have hshort : ∀ c r, (∃ n b, (n, some c, b) ∈ documentedFlags) → ∀ r', parseSub (('-' :: c :: r) :: r') = none := by
      rintro c r ⟨n, b, hm⟩ r'
      have hall : ∀ x ∈ documentedFlags, x.2.1 ≠ some '-' ∧ x.2.1 ≠ some 't' ∧ x.2.1 ≠ some 'h' := by decide
      obtain ⟨h1, h2, h3⟩ := hall _ hm
      simp only [ne_eq, Option.some.injEq] at h1 h2 h3
      rw [parseSub]
      · rw [subShort, no_test h2]
        simp [h3]
      · simp [h1]
      · simp [h1]
    cases h with
    | nil => exact absurd rfl hne
    | cons hs _ =>
      cases hs with
      | @equals n c b v hm => exact ⟨_, _, rfl, rfl, by rw [List.append_assoc]; exact hlong n (c!"=" ++ v) ⟨c, b, hm⟩ (.inr rfl)⟩
      | @next n c v hm => exact ⟨_, _, rfl, rfl, by have := hlong n [] ⟨c, _, hm⟩ (.inl rfl); simpa using this⟩
      | @bare n c b hm => exact ⟨_, _, rfl, rfl, by have := hlong n [] ⟨c, _, hm⟩ (.inl rfl); simpa using this⟩
      | @letter n c v hm => exact ⟨_, _, rfl, rfl, hshort c [] ⟨n, _, hm⟩⟩
      | switches pre hpre hsw =>
        cases pre with
        | nil => exact absurd rfl hpre
        | cons x pre => exact ⟨_, _, rfl, rfl, hshort x.2.1 (lettersOf pre) ⟨_, _, hsw x (by simp)⟩⟩
      | @joined pre n c v hsw hm hv he =>
        cases pre with
        | nil => exact ⟨_, _, rfl, rfl, hshort c v ⟨_, _, hm⟩⟩
        | cons x pre => exact ⟨_, _, rfl, rfl, hshort x.2.1 (lettersOf pre ++ c :: v) ⟨_, _, hsw x (by simp)⟩⟩
      | @joinedEquals pre n c b v hsw hm hv =>
        cases pre with
        | nil => exact ⟨_, _, rfl, rfl, hshort c ('=' :: v) ⟨_, _, hm⟩⟩
        | cons x pre => exact ⟨_, _, rfl, rfl, hshort x.2.1 (lettersOf pre ++ c :: '=' :: v) ⟨_, _, hsw x (by simp)⟩⟩
  have hac : a ≠ cmd := fun e => hd (e ▸ had)
  constructor
  · rw [command_word hc l args h, ha, List.cons_append, List.erase_cons_tail (by simpa using hac)]
    unfold Machine.runCommand
    rw [noFlags_eq]
    rw [hbad]
  · rw [List.append_assoc, List.cons_append, command_first hc]
    unfold Machine.runCommand
    rw [noFlags_eq]
    rw [words_stay hp, ha, List.cons_append, hbad]
    rfl

/-- **C78** More than one word after `env` is refused; after `completion` everything but one shell's
name. -/
theorem C78_words_refused (M : Machine) (X : Scripts) (order : List (Str × Str)) (ps : List Str) (hp : ∀ w ∈ ps, Word w) :
    (2 ≤ ps.length → M.command X order (c!"env" :: ps) = some (.failure, [])) ∧
    ((∀ sh ∈ [c!"bash", c!"zsh", c!"fish", c!"powershell"], ps ≠ [sh]) → M.command X order (c!"completion" :: ps) = some (.failure, [])) := by
  have key : ∀ cmd ∈ [c!"env", c!"completion"], argsValid cmd ps = false → M.command X order (cmd :: ps) = some (.failure, []) := by
    intro cmd hc hv
    rw [command_first hc]
    unfold Machine.runCommand
    rw [noFlags_eq]
    rw [words_parsed hp]; dsimp only; rw [hv]
    cases (initConfig (bareStart M)).isNone <;> rfl
  constructor
  · intro h
    refine key _ (by decide) ?_
    unfold argsValid
    simp only [if_true, decide_eq_false_iff_not]
    omega
  · intro h
    refine key _ (by decide) ?_
    unfold argsValid
    rw [if_neg (by decide)]
    split
    · next sh =>
      simp only [decide_eq_false_iff_not]
      intro hm
      exact h sh hm rfl
    · rfl

/-- **C78** `yot completion SHELL` prints the script for that shell. -/
theorem C78_completion (M : Machine) (hs : StartsBare M) (X : Scripts) (order : List (Str × Str)) (sh t : Str)
    (hsh : sh ∈ [c!"bash", c!"zsh", c!"fish", c!"powershell"]) (ht : X.script sh = some t) :
    M.command X order [c!"completion", sh] = some (.success, t) := by
  have hall : ∀ sh ∈ [c!"bash", c!"zsh", c!"fish", c!"powershell"], sh.head? ≠ some '-' ∧ argsValid c!"completion" [sh] = true := by decide
  obtain ⟨h1, h2⟩ := hall sh hsh
  rw [command_first (by decide), runCommand_words hs X order _ (by simpa [Word] using h1), h2]
  simp [completions, ht]

/-- **C78** `--help` works whatever the configuration. -/
theorem C78_help (M : Machine) (X : Scripts) (order : List (Str × Str)) (cmd : Str) (hc : cmd ∈ [c!"env", c!"completion"])
    (ps : List Str) (hp : ∀ w ∈ ps, Word w) (a : Str) (ha : a ∈ [c!"--help", c!"-h"]) :
    M.command X order (cmd :: ps ++ [a]) = some (.success, X.help cmd) := by
  rw [List.cons_append, command_first hc]
  unfold Machine.runCommand
  rw [noFlags_eq]
  rw [words_stay hp]
  have hall : ∀ a ∈ [c!"--help", c!"-h"], parseSub [a] = some ([c!"true"], []) := by decide
  rw [hall a ha]
  rfl

/-- **C78** `--help=v`: a word for true is as `--help`, a word for false does nothing, and anything else is
refused. -/
theorem C78_help_text (M : Machine) (X : Scripts) (order : List (Str × Str)) (cmd : Str) (hc : cmd ∈ [c!"env", c!"completion"])
    (ps : List Str) (hp : ∀ w ∈ ps, Word w) (v : Str) :
    M.command X order (cmd :: ps ++ [c!"--help=" ++ v]) =
      if v ∈ [c!"1", c!"t", c!"T", c!"true", c!"TRUE", c!"True"] then some (.success, X.help cmd)
      else if v ∈ [c!"0", c!"f", c!"F", c!"false", c!"FALSE", c!"False"] then M.command X order (cmd :: ps)
      else some (.failure, []) := by
  have hsub : parseSub [c!"--help=" ++ v] = some ([v], []) := by
    show parseSub [('-' :: '-' :: (c!"help" ++ '=' :: v))] = _
    rw [parseSub]
    · have : subLong (c!"help" ++ '=' :: v) = some [v] := by
        unfold subLong
        rw [(takeWhile_eq (by decide)).1]
        simp
      rw [this]
      rfl
    · intro h; cases h
  rw [List.cons_append, command_first hc, command_first hc]
  unfold Machine.runCommand
  rw [noFlags_eq]
  rw [words_stay hp, words_parsed hp, hsub]
  simp only [Option.map_some, List.append_nil, List.any_cons, List.any_nil, Bool.or_false, List.getLastD_cons, List.getLastD_nil]
  unfold parseBool
  by_cases h1 : v ∈ [c!"1", c!"t", c!"T", c!"TRUE", c!"true", c!"True"]
  · have h1' : v ∈ [c!"1", c!"t", c!"T", c!"true", c!"TRUE", c!"True"] := by
      simp only [List.mem_cons, List.not_mem_nil, or_false] at h1 ⊢; tauto
    rw [if_pos h1, if_pos h1']
    rfl
  · have h1' : v ∉ [c!"1", c!"t", c!"T", c!"true", c!"TRUE", c!"True"] := by
      simp only [List.mem_cons, List.not_mem_nil, or_false] at h1 ⊢; tauto
    rw [if_neg h1, if_neg h1']
    by_cases h2 : v ∈ [c!"0", c!"f", c!"F", c!"FALSE", c!"false", c!"False"]
    · have h2' : v ∈ [c!"0", c!"f", c!"F", c!"false", c!"FALSE", c!"False"] := by
        simp only [List.mem_cons, List.not_mem_nil, or_false] at h2 ⊢; tauto
      rw [if_pos h2, if_pos h2']
      rfl
    · have h2' : v ∉ [c!"0", c!"f", c!"F", c!"false", c!"FALSE", c!"False"] := by
        simp only [List.mem_cons, List.not_mem_nil, or_false] at h2 ⊢; tauto
      rw [if_neg h2, if_neg h2']
      rfl

/-- The ways to say `--help`, with the texts they give: `--help`, `--help=v`, `-h`, `-hh`, `-h=v`. -/
inductive Spec.HelpGiven : List Str → Str → Prop
  | long : HelpGiven [c!"true"] c!"--help"
  | longText (v : Str) : HelpGiven [v] (c!"--help=" ++ v)
  | letters (n : Nat) : HelpGiven (List.replicate (n + 1) c!"true") ('-' :: List.replicate (n + 1) 'h')
  | lettersText (n : Nat) (v : Str) : v ≠ [] →
      HelpGiven (List.replicate n c!"true" ++ [v]) ('-' :: List.replicate (n + 1) 'h' ++ '=' :: v)

/-- Arguments after such a command's name: words and ways to say `--help`, in any order. -/
inductive Spec.HelpLine : List Str → List Str → List Str → Prop
  | nil : HelpLine [] [] []
  | word {g ps as : List Str} (w : Str) : Word w → HelpLine g ps as → HelpLine g (w :: ps) (w :: as)
  | help {g g' ps as : List Str} {a : Str} : HelpGiven g a → HelpLine g' ps as → HelpLine (g ++ g') ps (a :: as)

theorem subShort_h (r : Str) (h : ¬ (r.head? = some '=' ∧ 2 ≤ r.length)) : subShort ('h' :: r) = (subShort r).map (fun g => c!"true" :: g) := by
  rw [subShort, no_test (by decide)]
  simp only [Bool.false_eq_true, if_false, if_true, if_neg h]

theorem subShort_hs : ∀ n, subShort (List.replicate n 'h') = some (List.replicate n c!"true")
  | 0 => by simp [subShort]
  | n + 1 => by
    rw [List.replicate_succ, subShort_h, subShort_hs n]
    · rfl
    · cases n <;> simp [List.replicate_succ]

theorem subShort_hsText (v : Str) (hv : v ≠ []) : ∀ n, subShort (List.replicate (n + 1) 'h' ++ '=' :: v) = some (List.replicate n c!"true" ++ [v])
  | 0 => by
    cases v with
    | nil => exact absurd rfl hv
    | cons x v =>
      show subShort ('h' :: '=' :: x :: v) = _
      rw [subShort, no_test (by decide)]
      simp
  | n + 1 => by
    rw [List.replicate_succ, List.cons_append, subShort_h, subShort_hsText v hv n]
    · rfl
    · simp [List.replicate_succ]

theorem helpGiven_parsed {g : List Str} {a : Str} (h : HelpGiven g a) (as : List Str) :
    parseSub (a :: as) = (parseSub as).map (fun x => (g ++ x.1, x.2)) := by
  have short : ∀ t : Str, t.head? = some 'h' → ∀ g, subShort t = some g → parseSub (('-' :: t) :: as) = (parseSub as).map (fun x => (g ++ x.1, x.2)) := by
    intro t ht g hg
    cases t with
    | nil => cases ht
    | cons c t =>
      simp at ht
      subst ht
      rw [parseSub]
      · rw [hg]
      · simp
      · simp
  cases h with
  | long =>
    show parseSub (('-' :: '-' :: c!"help") :: as) = _
    rw [parseSub]
    · rw [show subLong c!"help" = some [c!"true"] by decide]
    · simp
  | longText v =>
    show parseSub (('-' :: '-' :: (c!"help" ++ '=' :: v)) :: as) = _
    rw [parseSub]
    · have : subLong (c!"help" ++ '=' :: v) = some [v] := by
        unfold subLong
        rw [(takeWhile_eq (by decide)).1]
        simp
      rw [this]
    · intro h; cases h
  | letters n => exact short _ (by simp [List.replicate_succ]) _ (subShort_hs _)
  | lettersText n v hv => exact short _ (by simp [List.replicate_succ]) _ (subShort_hsText v hv n)

theorem helpLine_parsed {g ps as : List Str} (h : HelpLine g ps as) : parseSub as = some (g, ps) := by
  induction h with
  | nil => rfl
  | word w hw _ ih => rw [word_stays hw, ih]; rfl
  | help ha _ ih => rw [helpGiven_parsed ha, ih]; rfl

theorem helpLine_words {g ps as : List Str} (h : HelpLine g ps as) : ∀ w ∈ ps, Word w := by
  induction h with
  | nil => simp
  | word w hw _ ih => intro x hx; rcases List.mem_cons.1 hx with rfl | hx <;> [exact hw; exact ih x hx]
  | help _ _ ih => exact ih

/-- **C78** `--help` given any number of times, in any spelling, among any words: a text that is no
truth value is refused; otherwise the last one decides, and one that says no is as if none had
been given. -/
theorem C78_help_line (M : Machine) (X : Scripts) (order : List (Str × Str)) (cmd : Str) (hc : cmd ∈ [c!"env", c!"completion"])
    (g ps as : List Str) (h : HelpLine g ps as) :
    ((∃ v ∈ g, v ∉ [c!"1", c!"t", c!"T", c!"true", c!"TRUE", c!"True"] ∧ v ∉ [c!"0", c!"f", c!"F", c!"false", c!"FALSE", c!"False"]) →
      M.command X order (cmd :: as) = some (.failure, [])) ∧
    ((∀ v ∈ g, v ∈ [c!"1", c!"t", c!"T", c!"true", c!"TRUE", c!"True"] ∨ v ∈ [c!"0", c!"f", c!"F", c!"false", c!"FALSE", c!"False"]) →
      M.command X order (cmd :: as) =
        if (∃ v, g.getLast? = some v ∧ v ∈ [c!"1", c!"t", c!"T", c!"true", c!"TRUE", c!"True"]) then some (.success, X.help cmd)
        else M.command X order (cmd :: ps)) := by
  have hT : ∀ v ∈ [c!"1", c!"t", c!"T", c!"true", c!"TRUE", c!"True"], parseBool v = some true := by decide
  have hF : ∀ v ∈ [c!"0", c!"f", c!"F", c!"false", c!"FALSE", c!"False"], parseBool v = some false := by decide
  have hN : ∀ v, v ∉ [c!"1", c!"t", c!"T", c!"true", c!"TRUE", c!"True"] → v ∉ [c!"0", c!"f", c!"F", c!"false", c!"FALSE", c!"False"] →
      parseBool v = none := by
    intro v h1 h2
    unfold parseBool
    rw [if_neg (by simp only [List.mem_cons, List.not_mem_nil, or_false] at h1 ⊢; tauto),
      if_neg (by simp only [List.mem_cons, List.not_mem_nil, or_false] at h2 ⊢; tauto)]
  rw [command_first hc, command_first hc]
  constructor
  · rintro ⟨v, hv, h1, h2⟩
    unfold Machine.runCommand
    rw [helpLine_parsed h]
    dsimp only
    rw [if_pos]
    exact List.any_eq_true.2 ⟨v, hv, by simp [hN v h1 h2]⟩
  · intro hall
    unfold Machine.runCommand
    rw [helpLine_parsed h, words_parsed (helpLine_words h)]
    have hany : g.any (fun v => (parseBool v).isNone) = false := by
      rw [List.any_eq_false]
      intro v hv
      rcases hall v hv with h | h
      · simp [hT v h]
      · simp [hF v h]
    simp only [hany, Bool.false_eq_true, if_false]
    rcases List.eq_nil_or_concat g with rfl | ⟨g', v, rfl⟩
    · simp
    · rw [List.concat_eq_append] at hall ⊢
      rcases hall v (by simp) with h | h
      · rw [if_pos (by simp [hT v h]), if_pos ⟨v, by simp, h⟩]
      · have hno : ¬ ∃ w, (g' ++ [v]).getLast? = some w ∧ w ∈ [c!"1", c!"t", c!"T", c!"true", c!"TRUE", c!"True"] := by
          rintro ⟨w, hw, hm⟩
          rw [List.getLast?_append] at hw
          simp only [List.getLast?_singleton, Option.some_or, Option.some.injEq] at hw
          subst hw
          have := hT _ hm
          rw [hF _ h] at this
          cases this
        rw [if_neg (by simp [hF v h]), if_neg hno]
        rfl

/-- **C78** What follows `--` is taken as words. -/
theorem C78_after_dashes (M : Machine) (X : Scripts) (order : List (Str × Str)) (cmd : Str) (hc : cmd ∈ [c!"env", c!"completion"])
    (ps qs : List Str) (hp : ∀ w ∈ ps, Word w) :
    (∀ w ∈ qs, Word w) → M.command X order (cmd :: ps ++ c!"--" :: qs) = M.command X order (cmd :: ps ++ qs) := by
  intro hq
  rw [List.cons_append, List.cons_append, command_first hc, command_first hc]
  unfold Machine.runCommand
  rw [noFlags_eq]
  rw [words_stay hp, words_stay hp, words_parsed hq]
  rfl

/-- **C78** Where the configuration file cannot be read these commands fail; with a log level in it
that is not one of the names they crash, as every run does (C69). -/
theorem C78_bad_start (M : Machine) (X : Scripts) (order : List (Str × Str)) (cmd : Str) (hc : cmd ∈ [c!"env", c!"completion"])
    (ps : List Str) (hp : ∀ w ∈ ps, Word w) :
    (fileEntries (bareStart M) = none → M.command X order (cmd :: ps) = some (.failure, [])) ∧
    (fileEntries (bareStart M) ≠ none →
      ¬ NamesLevel (((setting (bareStart M) c!"logLevel").map CVal.str).getD []) →
      (cmd = c!"env" ∧ ps.length ≤ 1 ∨ cmd = c!"completion" ∧ ∃ sh ∈ [c!"bash", c!"zsh", c!"fish", c!"powershell"], ps = [sh]) →
      M.command X order (cmd :: ps) = some (.crash, [])) := by
  constructor
  · intro h
    rw [command_first hc]
    unfold Machine.runCommand
    rw [noFlags_eq]
    rw [words_parsed hp]
    have : initConfig (bareStart M) = none := (C46_config_file _).2 h
    simp [this]
    decide
  · intro h hl hv
    rw [command_first hc]
    unfold Machine.runCommand
    rw [noFlags_eq]
    rw [words_parsed hp]
    have hl' : isLevel (((setting (bareStart M) c!"logLevel").map CVal.str).getD []) = false := by
      rw [← Bool.not_eq_true, isLevel_iff]; exact hl
    have ha : argsValid cmd ps = true := by
      unfold argsValid
      rcases hv with ⟨rfl, h⟩ | ⟨rfl, sh, hm, rfl⟩
      · simpa using h
      · rw [if_neg (by decide)]
        simpa [shellNames] using hm
    dsimp only
    rw [env_started h, hl', ha]
    rfl

/-- **C78** These commands are not the main one: nothing is read as instructions or input and no
output is written. -/
theorem C78_not_main (M : Machine) (X : Scripts) (order : List (Str × Str)) (args : List Str) (r : Exit × Str)
    (h : M.command X order args = some r) (P : Texts) (e : Exit) (log : List Out) : ¬ M.EndsOn P args e log := by
  have hc : called args = .other := by
    unfold Machine.command at h
    unfold called
    split at h
    · cases h
    · next w ws hw =>
      split at h
      · next hm =>
        rw [hw]
        have hall : ∀ w ∈ [c!"env", c!"completion"], w ∈ commandNames := by decide
        simp [hall w hm]
      · cases h
  intro he
  cases he with
  | refused h1 => rw [hc] at h1; cases h1
  | badText g h1 => rw [hc] at h1; cases h1
  | info g h1 => rw [hc] at h1; cases h1
  | run g _ _ h1 => rw [hc] at h1; cases h1

/-! Cases. -/

example : HelpLine [c!"true", c!"0"] [c!"YOT_STDOUT"] [c!"YOT_STDOUT", c!"-hh=0"] :=
  .word _ (by simp [Word]) (.help (.lettersText 1 c!"0" (by decide)) .nil)

example : StartsBare Ex.machine := ⟨Option.isSome_iff_ne_none.1 (by rfl), (isLevel_iff _).1 (by decide)⟩

example (X : Scripts) : Ex.machine.command X envMap [c!"env", c!"YOT_STDOUT"] = some (.success, c!"YOT_STDOUT=\"false\"\n") ∧
    Ex.machine.command X envMap [c!"-o", c!"env", c!"env"] = some (.failure, []) ∧
    Ex.machine.command X envMap [c!"completion", c!"tcsh"] = some (.failure, []) := by
  refine ⟨by rfl, by rfl, by rfl⟩

end Yot
