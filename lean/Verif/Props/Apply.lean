import Verif.Lemmas.Query
import Verif.Lemmas.Case
import Verif.Spec.Build
import Mathlib.Logic.Function.Iterate
/-
C18-C20, C24, C25: when an overlay applies, and the names of the actions.
-/
namespace Yot
open Spec Ex

/-! ### The onMissing action in effect -/

theorem isInjectWord_iff (s : Str) : isInjectWord s = true ↔ AnyCase s c!"inject" := by
  unfold isInjectWord
  rw [decide_eq_true_eq]
  exact map_toLower_iff s _ (by decide)

theorem resolve_inject_iff (dflt : Str) (m : OnMissing) :
    (m.resolve dflt).action = .inject ↔ Injects dflt m := by
  unfold OnMissing.resolve Injects Effective
  rw [← isInjectWord_iff]
  by_cases h1 : m.action = .default
  · by_cases h2 : isInjectWord dflt = true <;> simp [h1, h2]
  · simp only [h1, false_and, if_false, ne_eq, not_false_iff, true_and, or_false]
    exact eq_comm

/-! ### C18 -/

/-- C18: if the document query does not hold, or nothing is matched and inject is
not in effect, the document is unchanged and there is no error. -/
theorem C18_unqualified_overlay_is_identity (E : Sed) (dflt : Str) (o : Overlay) (doc : Node)
    (h : ¬ Qualifies o doc ∨ ((¬ ∃ m, Matches o.query doc m) ∧ ¬ Injects dflt o.onMissing)) :
    apply E dflt o doc = .ok doc := by
  unfold apply
  by_cases hq : Qualifies o doc
  · obtain ⟨hm, hi⟩ := h.resolve_left (fun h => h hq)
    rw [← checkQueries_iff] at hq
    rw [← findAll_eq_nil] at hm
    rw [← resolve_inject_iff] at hi
    simp only [hq, hm, Bool.not_true, Bool.false_eq_true, if_false, List.isEmpty_nil, if_true]
    unfold onMissing
    split
    · contradiction
    · rfl
  · rw [← checkQueries_iff] at hq
    simp only [Bool.not_eq_true] at hq
    simp [hq]

/-- C18, converse: an overlay that qualifies and matches something runs its action
on all the matches, and one that matches nothing runs the injection when inject
is in effect. -/
theorem C18_otherwise (E : Sed) (dflt : Str) (o : Overlay) (doc : Node) (hq : Qualifies o doc) :
    ((∃ m, Matches o.query doc m) →
      ∃ ms, (∀ m, m ∈ ms ↔ Matches o.query doc m) ∧ apply E dflt o doc = doAction E o doc ms) ∧
    ((¬ ∃ m, Matches o.query doc m) → Injects dflt o.onMissing →
      apply E dflt o doc = handleInjectPath E o doc) := by
  rw [← checkQueries_iff] at hq
  constructor
  · intro hm
    refine ⟨findAll o.query doc, mem_findAll _ _, ?_⟩
    have : findAll o.query doc ≠ [] := by
      rw [Ne, findAll_eq_nil, not_not]
      exact hm
    simp [apply, hq, this]
  · intro hm hi
    rw [← findAll_eq_nil] at hm
    rw [← resolve_inject_iff] at hi
    simp [apply, hq, hm, onMissing, hi]

/-- A query that matches the root mapping's children with text `v`. -/
def Ex.textQuery (v : Str) : Query :=
  ⟨v, fun n => n.content.flatMap fun r => r.content.filter (fun c => c.hd.value = v)⟩

example : ¬ Qualifies { documentQuery := [[⟨[textQuery c!"x"], .mk {} []⟩]] } (dc (mp [sc c!"a", sc c!"b"])) := by
  rw [← checkQueries_iff]; decide
example : Qualifies { documentQuery := [[⟨[textQuery c!"b"], sc c!"b"⟩]] } (dc (mp [sc c!"a", sc c!"b"])) := by
  rw [← checkQueries_iff]; decide
example : ¬ Injects c!"ignore" {} ∧ Injects c!"InJect" {} := by
  simp only [← resolve_inject_iff]; decide

/-! ### C19 -/

/-- C19: an overlay whose document query does not hold is skipped, and one whose
query holds is not: the decision is exactly "no groups, or some group has all its
conditions satisfied".  (Equality is as data, see C20 for `SameNil`.) -/
theorem C19_or_of_ands (o : Overlay) (doc : Node) :
    checkQueries o.documentQuery doc = true ↔
      (o.documentQuery = [] ∨ ∃ g ∈ o.documentQuery, ∀ c ∈ g,
        (∃ m, Matches c.query doc m) ∧
        (¬ Absent c.value → ∀ m, Matches c.query doc m → plain m = plain c.value ∧ SameNil m c.value)) :=
  checkQueries_iff o doc

/-- C19: an overlay that would change the document does so only if the document
query holds. -/
theorem C19_gate (E : Sed) (dflt : Str) (o : Overlay) (doc : Node)
    (h : apply E dflt o doc ≠ .ok doc) :
    o.documentQuery = [] ∨ ∃ g ∈ o.documentQuery, ∀ c ∈ g, Holds c doc := by
  by_contra hc
  exact h (C18_unqualified_overlay_is_identity E dflt o doc (.inl hc))

/-! ### C80 -/

/-- C80 (partial): if the matches of a condition are all the same as data, the condition holds
exactly if one of them has the value.  Missing: queries with different matches, for which one is
not enough (`C80_one_of_counterexample`). -/
theorem C80_one_of_partial (c : Condition) (doc : Node) (hv : ¬ Absent c.value) (hp : Parsed c.value)
    (hm : ∀ m, Matches c.query doc m → Parsed m) (hs : ∀ m m', Matches c.query doc m → Matches c.query doc m' → plain m = plain m') :
    checkQueries [[c]] doc = true ↔ ∃ m, Matches c.query doc m ∧ plain m = plain c.value := by
  have := checkQueries_iff { documentQuery := [[c]] } doc
  simp only [Qualifies, Holds] at this
  rw [this]
  constructor
  · rintro (h | ⟨g, hg, h⟩)
    · simp at h
    · simp only [List.mem_singleton] at hg
      subst hg
      obtain ⟨⟨m, h1⟩, h2⟩ := h c (by simp)
      exact ⟨m, h1, (h2 hv m h1).1⟩
  · rintro ⟨m, h1, h2⟩
    refine .inr ⟨[c], by simp, fun c' hc => ?_⟩
    simp only [List.mem_singleton] at hc
    subst hc
    refine ⟨⟨m, h1⟩, fun _ m' h3 => ?_⟩
    have he : plain m' = plain c'.value := (hs m' m h3 h1).trans h2
    exact ⟨he, sameNil_of_parsed _ _ (hm m' h3) hp he⟩

/-- **C80 is false of the code** when a query has several matches: here one of the two has the
value of the only condition, and the overlay is not applied. -/
theorem C80_one_of_counterexample : ∃ (c : Condition) (doc m : Node), Parsed doc ∧ Matches c.query doc m ∧ plain m = plain c.value ∧
    ∀ (E : Sed) (dflt : Str) (o : Overlay), o.documentQuery = [[c]] → apply E dflt o doc = .ok doc := by
  refine ⟨⟨[textQuery c!"b", textQuery c!"d"], sc c!"b"⟩, dc (mp [sc c!"a", sc c!"b", sc c!"c", sc c!"d"]), sc c!"b", ?_, ?_, rfl, ?_⟩
  · simp [dc, mp, sc, Parsed, Parseds]
  · exact ⟨by decide, textQuery c!"b", by simp, by decide⟩
  · intro E dflt o ho
    refine C18_unqualified_overlay_is_identity E dflt o _ (.inl ?_)
    rw [← checkQueries_iff, ho]
    decide

/-- C80: a condition with a value that holds has matches, all of them with the value. -/
theorem C80_all_of (c : Condition) (doc : Node) (hv : ¬ Absent c.value) (h : checkQueries [[c]] doc = true) :
    (∃ m, Matches c.query doc m) ∧ ∀ m, Matches c.query doc m → plain m = plain c.value := by
  have := (checkQueries_iff { documentQuery := [[c]] } doc).1 h
  rcases this with h | ⟨g, hg, h⟩
  · simp at h
  · simp only [List.mem_singleton] at hg
    subst hg
    obtain ⟨h1, h2⟩ := h c (by simp)
    exact ⟨h1, fun m hm => (h2 hv m hm).1⟩

example : checkQueries [[⟨[textQuery c!"b"], sc c!"b"⟩]] (dc (mp [sc c!"a", sc c!"b"])) = true := by decide

/-! ### C20 -/

/-- C20 (partial): on nodes as the parser makes them, equality in a document query
is equality as data: comments, style and position are ignored and nothing else.
Missing: nodes emptied by an earlier delete (`C20_emptied_mapping`). -/
theorem C20_equality_as_data_partial (a b : Node) (ha : Parsed a) (hb : Parsed b) :
    cmpEqual a b = true ↔ plain a = plain b := by
  rw [cmpEqual_iff]
  exact ⟨fun h => h.1, fun h => ⟨h, sameNil_of_parsed a b ha hb h⟩⟩

/-- C20: nodes that compare equal are equal as data, whatever their history. -/
theorem C20_sound (a b : Node) (h : cmpEqual a b = true) : plain a = plain b :=
  ((cmpEqual_iff a b).1 h).1

/-- C20, exactly: two nodes compare equal iff they are equal as data and, wherever they have
no children, "no children" came about in the same way (as parsed, or by an edit). -/
theorem C20_exactly (a b : Node) : cmpEqual a b = true ↔ plain a = plain b ∧ SameNil a b := cmpEqual_iff a b

/-- C20 is false for a mapping emptied by a delete: it is the same data as `{}`,
but does not compare equal to it. -/
theorem C20_emptied_mapping :
    ∃ doc v doc' m, Parsed doc ∧ Parsed v ∧
      deleteNode 3 doc = .ok doc' ∧ doc'.content = [m] ∧
      plain m = plain v ∧ cmpEqual m v = false := by
  refine ⟨(dc (mp [sc c!"a", sc c!"b"])).label, mp [], _, _, ?_, ?_, rfl, rfl, rfl, rfl⟩
  · simp [Node.label, Node.labelFrom, Node.labelsFrom, dc, mp, sc, Parsed, Parseds]
  · simp [mp, Parsed, Parseds]

example : Parsed (dc (mp [sc c!"a", sq []])) := by
  simp [dc, mp, sc, sq, Parsed, Parseds]
/-- The same data with a comment and another style still compares equal. -/
example : cmpEqual (.mk { kind := .scalar, value := c!"x", line := c!"# hi", style := 4, row := 7 } [])
    (.mk { kind := .scalar, value := c!"x" } []) = true := by decide
example : cmpEqual (sc c!"1") (sc c!"1" c!"!!int") = false := by decide

/-! ### C24 -/

/-- C24: the accepted action names are exactly the four words in any letter case,
each meaning its action; everything else is an error. -/
theorem C24_action_names (y : Str) (a : Action) :
    parseAction y = .ok a ↔
      (AnyCaseU y c!"merge" ∧ a = .merge) ∨ (AnyCaseU y c!"replace" ∧ a = .replace) ∨
      (AnyCaseU y c!"delete" ∧ a = .delete) ∨ (AnyCaseU y c!"combine" ∧ a = .combine) := by
  rw [← toLowerStr_iff y c!"merge" (by decide), ← toLowerStr_iff y c!"replace" (by decide),
    ← toLowerStr_iff y c!"delete" (by decide), ← toLowerStr_iff y c!"combine" (by decide)]
  unfold parseAction actionOfName
  generalize toLowerStr y = z
  by_cases h1 : z = c!"merge"
  · subst h1; cases a <;> simp
  · by_cases h2 : z = c!"replace"
    · subst h2; cases a <;> simp
    · by_cases h3 : z = c!"delete"
      · subst h3; cases a <;> simp
      · by_cases h4 : z = c!"combine"
        · subst h4; cases a <;> simp
        · simp [h1, h2, h3, h4]

/-- C24: anything else is an invalid-action error. -/
theorem C24_otherwise_error (y : Str)
    (h : ∀ w ∈ [c!"merge", c!"replace", c!"delete", c!"combine"], ¬ AnyCaseU y w) :
    parseAction y = .err .invalidAction := by
  cases hp : parseAction y with
  | ok a =>
    rw [C24_action_names] at hp
    simp only [List.mem_cons, List.not_mem_nil, or_false, forall_eq_or_imp, forall_eq] at h
    tauto
  | err e =>
    unfold parseAction at hp
    simp only at hp
    split at hp <;> simp_all
  | panic =>
    unfold parseAction at hp
    simp only at hp
    split at hp <;> simp_all

/-- C24: writing an action and reading it back gives the same action. -/
theorem C24_round_trip (a : Action) (h : a ≠ .invalid) : parseAction a.str = .ok a := by
  cases a <;> first | contradiction | decide

/-- C24: an overlay decoded without an action behaves as one with action merge,
on every document, whether or not it has a name. -/
theorem C24_default_is_merge (E : Sed) (dflt : Str) (o : Overlay) (h : o.action = .invalid) (doc : Node) :
    apply E dflt o.afterDecode doc = apply E dflt { o with action := .merge } doc := by
  have hone : ∀ (o1 o2 : Overlay), (o1.action = .invalid ∨ o1.action = .merge) → o2.action = .merge →
      o1.value = o2.value → ∀ root ns, doAction E o1 root ns = doAction E o2 root ns := by
    intro o1 o2 h1 h2 hv root ns
    unfold doAction
    congr 1
    funext r n
    unfold doOne
    rcases h1 with h1 | h1 <;> rw [h1, h2, hv]
  unfold Overlay.afterDecode
  split
  · unfold apply onMissing handleInjectPath doInjectPath
    simp only
    rw [hone { o with name := joinWith ',' (o.query.map Query.str) } { o with action := .merge }
      (.inl h) rfl rfl]
  · simp [h, Action.str]

example : AnyCaseU c!"ReplACE" c!"replace" := by
  rw [← toLowerStr_iff _ _ (by decide)]; decide
example : ∀ w ∈ [c!"merge", c!"replace", c!"delete", c!"combine"], ¬ AnyCaseU c!"remove" w := by
  simp only [List.mem_cons, List.not_mem_nil, or_false, forall_eq_or_imp, forall_eq]
  refine ⟨?_, ?_, ?_, ?_⟩ <;> rw [← toLowerStr_iff _ _ (by decide)] <;> decide

/-! ### C25 -/

/-- C25: inject is in effect iff the overlay says inject, or says nothing and the
configured default is `inject` in any letter case. -/
theorem C25_effective_action (dflt : Str) (m : OnMissing) :
    (m.resolve dflt).action = .inject ↔
      m.action = .inject ∨ (m.action = .default ∧ AnyCase dflt c!"inject") := by
  unfold OnMissing.resolve
  rw [← isInjectWord_iff]
  by_cases h : m.action = .default ∧ isInjectWord dflt = true
  · simp [h]
  · simp only [h, if_false, or_false]

/-- C25: how the overlay's own setting is read: unknown words count as saying
nothing. -/
theorem C25_reading (y : Str) :
    (parseOnMissing y = .inject ↔ AnyCaseU y c!"inject") ∧
    (parseOnMissing y = .ignore ↔ AnyCaseU y c!"ignore") ∧
    (parseOnMissing y = .default ↔ ¬ AnyCaseU y c!"inject" ∧ ¬ AnyCaseU y c!"ignore") := by
  rw [← toLowerStr_iff y c!"inject" (by decide), ← toLowerStr_iff y c!"ignore" (by decide)]
  unfold parseOnMissing
  generalize toLowerStr y = z
  by_cases h1 : z = c!"ignore"
  · subst h1; simp
  · by_cases h2 : z = c!"inject"
    · subst h2; simp
    · simp [h1, h2]

/-- C25: an explicit ignore is never overridden. -/
theorem C25_ignore_wins (dflt : Str) (m : OnMissing) (h : m.action = .ignore) :
    (m.resolve dflt).action = .ignore := by
  unfold OnMissing.resolve
  simp [h]

/-- C25: the overlay object is updated when it is used; using it any number of
times (on any documents) leads to the same answer as the first time, and nothing
else of the overlay changes. -/
theorem C25_stable (E : Sed) (dflt : Str) (o : Overlay) (k : Nat) (doc : Node) :
    apply E dflt ((Overlay.resolve dflt)^[k] o) doc = apply E dflt o doc := by
  induction k generalizing o with
  | zero => rfl
  | succ k ih =>
    rw [Function.iterate_succ_apply, ih]
    have hr : ∀ m : OnMissing, (m.resolve dflt).resolve dflt = m.resolve dflt := by
      intro m
      unfold OnMissing.resolve
      split <;> simp_all
    have hi : ∀ m : OnMissing, (m.resolve dflt).injectPath = m.injectPath := by
      intro m
      unfold OnMissing.resolve
      split <;> rfl
    unfold apply onMissing
    simp only [Overlay.resolve, hr]
    have h2 : ∀ d, handleInjectPath E { o with onMissing := o.onMissing.resolve dflt } d = handleInjectPath E o d := by
      intro d
      unfold handleInjectPath doInjectPath
      simp only [hi]
    simp only [h2]
    rfl

example : parseOnMissing c!"INJECT" = .inject ∧ parseOnMissing c!"bogus" = .default := by decide

end Yot
