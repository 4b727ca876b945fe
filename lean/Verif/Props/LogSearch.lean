import Verif.Props.Log
/-
C87: which searches the log tells of.
-/
namespace Yot
open Spec Ex

/-- The searches a log tells of, in order. -/
def Spec.searches (l : List Msg) : List Str := l.filterMap (fun m => match m with | .searching t => some t | _ => none)

/-- The texts of some queries. -/
def Spec.textsOf (qs : List Query) : List Str := qs.map (·.str)

/-- Searching for the conditions of a group: one after the other, until one does not hold. -/
inductive Spec.GroupSearched (doc : Node) : List Condition → List Str → Prop
  | nil : GroupSearched doc [] []
  | fails (c : Condition) (cs : List Condition) : ¬ Holds c doc → GroupSearched doc (c :: cs) (textsOf c.query)
  | holds (c : Condition) {cs : List Condition} {l : List Str} : Holds c doc → GroupSearched doc cs l →
      GroupSearched doc (c :: cs) (textsOf c.query ++ l)

/-- Searching for the groups of a document query: one after the other, until one holds. -/
inductive Spec.GroupsSearched (doc : Node) : List DocumentQuery → List Str → Prop
  | nil : GroupsSearched doc [] []
  | holds {g : DocumentQuery} (gs : List DocumentQuery) {l : List Str} : (∀ c ∈ g, Holds c doc) → GroupSearched doc g l →
      GroupsSearched doc (g :: gs) l
  | fails {g : DocumentQuery} {gs : List DocumentQuery} {l l' : List Str} : (¬ ∀ c ∈ g, Holds c doc) → GroupSearched doc g l →
      GroupsSearched doc gs l' → GroupsSearched doc (g :: gs) (l ++ l')

theorem searches_append (a b : List Msg) : searches (a ++ b) = searches a ++ searches b := by simp [searches]

theorem searches_find (qs : List Query) : searches (findMsgs qs) = textsOf qs := by
  induction qs with
  | nil => rfl
  | cons q qs ih => simpa [searches, findMsgs, textsOf] using ih

theorem group_searched (doc : Node) : ∀ g : DocumentQuery, GroupSearched doc g (searches (checkQueryMsgs doc g))
  | [] => .nil
  | c :: cs => by
    unfold checkQueryMsgs
    rw [searches_append, searches_find]
    by_cases h : Holds c doc
    · rw [if_pos ((checkCondition_iff c doc).2 h)]
      exact .holds c h (group_searched doc cs)
    · rw [if_neg (fun hc => h ((checkCondition_iff c doc).1 hc))]
      simpa [searches] using GroupSearched.fails c cs h

theorem groups_searched (doc : Node) : ∀ gs : List DocumentQuery, GroupsSearched doc gs (searches (checkQueriesMsgsFrom doc gs))
  | [] => .nil
  | g :: gs => by
    rw [checkQueries_cons, searches_append]
    have hg := group_searched doc g
    have hh : checkQuery g doc = true ↔ ∀ c ∈ g, Holds c doc := by
      simp [checkQuery, List.all_eq_true, checkCondition_iff]
    by_cases h : ∀ c ∈ g, Holds c doc
    · rw [if_pos (hh.2 h)]
      simpa [searches] using GroupsSearched.holds gs h hg
    · rw [if_neg (fun hc => h (hh.1 hc))]
      exact .fails h hg (groups_searched doc gs)

theorem searches_none {l : List Msg} (h : ∀ m ∈ l, m.isApplying = true) : searches l = [] := by
  unfold searches
  rw [List.filterMap_eq_nil_iff]
  intro m hm
  have := h m hm
  cases m <;> simp_all [Msg.isApplying]

/-- **C87**: the log tells of every search and of no other: those for the conditions, as far as they are needed, then, if the
document query holds, those for the overlay's own queries, and then, if nothing was found and paths have been injected, those for
the injected paths. -/
theorem C87_searched (E : Sed) (dflt : Str) (o : Overlay) (doc : Node) :
    ∃ l, GroupsSearched doc o.documentQuery l ∧
      (¬ Qualifies o doc → searches (applyMsgs E dflt o doc) = l) ∧
      (Qualifies o doc → ((∃ m, Matches o.query doc m) ∨ ¬ Injects dflt o.onMissing) →
        searches (applyMsgs E dflt o doc) = l ++ textsOf o.query) ∧
      (Qualifies o doc → (¬ ∃ m, Matches o.query doc m) → Injects dflt o.onMissing → (∀ q ∈ o.query, PlainPath q.str) →
        (∃ d, apply E dflt o doc = .ok d) → searches (applyMsgs E dflt o doc) = l ++ textsOf o.query ++ textsOf o.query) ∧
      (Qualifies o doc → (¬ ∃ m, Matches o.query doc m) → Injects dflt o.onMissing → (¬ ∀ q ∈ o.query, PlainPath q.str) →
        (∃ d, apply E dflt o doc = .ok d) →
        searches (applyMsgs E dflt o doc) = l ++ textsOf o.query ++ textsOf (o.onMissing.injectPath.getD [])) := by
  classical
  have hmsgs : searches (applyMsgs E dflt o doc) = searches (checkQueriesMsgs o.documentQuery doc) ++
      if Qualifies o doc then textsOf o.query ++
        if (∃ m, Matches o.query doc m) then [] else searches (onMissingMsgs E dflt o doc)
      else [] := by
    unfold applyMsgs
    have h0 : ∀ l, searches (Msg.checking o.name :: l) = searches l := fun l => rfl
    rw [List.cons_append, h0, searches_append]
    congr 1
    by_cases hq : Qualifies o doc
    · rw [if_pos hq, if_pos ((checkQueries_iff o doc).2 hq)]
      rw [searches_append, searches_find]
      congr 1
      by_cases hm : ∃ m, Matches o.query doc m
      · rw [if_pos hm, if_neg (by rw [List.isEmpty_iff, findAll_eq_nil]; exact not_not.2 hm)]
        exact searches_none (mem_actionMsgs E o _ _)
      · rw [if_neg hm, if_pos (by rw [List.isEmpty_iff, findAll_eq_nil]; exact hm)]
        rfl
    · rw [if_neg hq, if_neg (fun hc => hq ((checkQueries_iff o doc).1 hc))]
      rfl
  have hinj : ∀ ip : List Query, (∃ d, doInjectPath E o ip doc = .ok d) → searches (injectMsgs E ip doc) = textsOf ip := by
    rintro ip ⟨d, hd⟩
    unfold doInjectPath at hd
    unfold injectMsgs
    cases hn : newPaths (ip.map Query.str) with
    | err e => rw [hn] at hd; cases hd
    | panic => rw [hn] at hd; cases hd
    | ok bps =>
      rw [hn] at hd
      simp only [Res.bind_ok] at hd
      dsimp only
      cases hb : buildPaths E bps with
      | err e => rw [hb] at hd; cases hd
      | panic => rw [hb] at hd; cases hd
      | ok y =>
        rw [hb] at hd
        dsimp only at hd ⊢
        cases hg : mergeNode E doc y with
        | err e => rw [hg] at hd; cases hd
        | panic => rw [hg] at hd; cases hd
        | ok z => exact searches_find ip
  have happ : Qualifies o doc → (¬ ∃ m, Matches o.query doc m) → Injects dflt o.onMissing → apply E dflt o doc = handleInjectPath E o doc := by
    intro hq hm hi
    unfold apply onMissing
    rw [(checkQueries_iff o doc).2 hq, (resolve_inject_iff _ _).2 hi, (findAll_eq_nil o.query doc).2 hm]
    rfl
  refine ⟨searches (checkQueriesMsgs o.documentQuery doc), ?_, ?_, ?_, ?_, ?_⟩
  · unfold checkQueriesMsgs
    split
    · next h => rw [List.isEmpty_iff.1 h]; exact .nil
    · exact groups_searched doc _
  · intro hq
    rw [hmsgs, if_neg hq, List.append_nil]
  · intro hq h
    rw [hmsgs, if_pos hq]
    by_cases hm : ∃ m, Matches o.query doc m
    · rw [if_pos hm, List.append_nil]
    · rw [if_neg hm]
      have hni := h.resolve_left hm
      unfold onMissingMsgs
      have : (o.onMissing.resolve dflt).action ≠ .inject := fun e => hni ((resolve_inject_iff _ _).1 e)
      dsimp only
      split
      · exact absurd ‹_› this
      · simp [searches]
  · intro hq hm hi hp hok
    rw [happ hq hm hi] at hok
    rw [hmsgs, if_pos hq, if_neg hm, List.append_assoc]
    obtain ⟨ns, hns⟩ := newPaths_ok (o.query.map Query.str) (by simpa using hp)
    unfold handleInjectPath at hok
    rw [hns] at hok
    congr 2
    rw [← hinj o.query hok]
    unfold onMissingMsgs
    rw [(resolve_inject_iff _ _).2 hi]
    dsimp only
    rw [hns]
  · intro hq hm hi hp hok
    rw [happ hq hm hi] at hok
    rw [hmsgs, if_pos hq, if_neg hm, List.append_assoc]
    have hns := newPaths_err (o.query.map Query.str) (by simpa using hp)
    unfold handleInjectPath at hok
    rw [hns] at hok
    congr 2
    unfold onMissingMsgs
    rw [(resolve_inject_iff _ _).2 hi]
    dsimp only at hok ⊢
    rw [hns]
    dsimp only
    cases hip : o.onMissing.injectPath with
    | none => rfl
    | some ip =>
      rw [hip] at hok
      exact hinj ip hok

/-- Two groups: the first fails at its first condition, the second holds. -/
example : GroupsSearched (dc (mp [sc c!"a", sc c!"b"])).label
    [[⟨[textQuery c!"z"], .mk {} []⟩, ⟨[textQuery c!"a"], .mk {} []⟩], [⟨[textQuery c!"b"], .mk {} []⟩]] [c!"z", c!"b"] := by
  have hz : ¬ Holds ⟨[textQuery c!"z"], .mk {} []⟩ (dc (mp [sc c!"a", sc c!"b"])).label := by
    rw [← checkCondition_iff]; decide
  have hb : Holds ⟨[textQuery c!"b"], .mk {} []⟩ (dc (mp [sc c!"a", sc c!"b"])).label := by
    rw [← checkCondition_iff]; decide
  exact .fails (l := [c!"z"]) (fun h => hz (h _ (by simp))) (.fails _ _ hz)
    (.holds (l := [c!"b"]) [] (fun c hc => by rw [List.mem_singleton.1 hc]; exact hb) (.holds _ hb .nil))

end Yot
