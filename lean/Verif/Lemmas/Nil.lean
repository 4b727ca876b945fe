import Verif.Model.Nil
/-
Overlays with nil pointers and without.
-/
namespace Yot

theorem checkConditionsN_some (cs : List (Option Condition)) (n : Node) (b : Bool) (h : checkConditionsN cs n = some b) :
    checkQuery (cs.filterMap id) n = b := by
  unfold checkQuery
  induction cs with
  | nil => cases h; rfl
  | cons c cs ih =>
    cases c with
    | none => cases h
    | some c =>
      simp only [checkConditionsN] at h
      by_cases hc : checkCondition c n = true
      · rw [if_pos hc] at h
        simp [hc, ih h]
      · rw [if_neg hc] at h
        cases h
        simp [hc]

theorem checkSomeN_some (qs : List (Option (List (Option Condition)))) (n : Node) (b : Bool) (h : checkSomeN qs n = some b) :
    (qs.filterMap (fun q => q.map (fun cs => cs.filterMap id))).any (fun q => checkQuery q n) = b := by
  induction qs with
  | nil => cases h; rfl
  | cons q qs ih =>
    cases q with
    | none => cases h
    | some q =>
      simp only [checkSomeN] at h
      cases hq : checkConditionsN q n with
      | none => rw [hq] at h; cases h
      | some c =>
        rw [hq] at h
        have := checkConditionsN_some q n c hq
        cases c with
        | true => cases h; simp [this]
        | false => simp [this, ih h]

theorem checkQueriesN_some (qs : List (Option (List (Option Condition)))) (n : Node) (b : Bool) (h : checkQueriesN qs n = some b) :
    checkQueries (qs.filterMap (fun q => q.map (fun cs => cs.filterMap id))) n = b := by
  unfold checkQueriesN at h
  unfold checkQueries
  cases qs with
  | nil => cases h; rfl
  | cons q qs =>
    cases q with
    | none => cases h
    | some q =>
      rw [if_neg (by simp)] at h
      rw [if_neg (by simp)]
      exact checkSomeN_some _ n b h

/-- Applying a decoded overlay crashes at a nil pointer, or does what the overlay without them does. -/
theorem DOverlay.apply_eq (E : Sed) (dflt : Str) (d : DOverlay) (doc : Node) :
    d.apply E dflt doc = if d.nilIn E dflt doc then .panic else Yot.apply E dflt d.plain doc := by
  unfold DOverlay.apply DOverlay.nilIn
  cases hq : checkQueriesN d.queries doc with
  | none => rfl
  | some b =>
    have := checkQueriesN_some _ _ _ hq
    cases b with
    | false => simp [Yot.apply, DOverlay.plain, this]
    | true =>
      simp only
      by_cases hu : d.usesNilPath E dflt doc = true
      · rw [if_pos hu, if_pos hu]
      · rw [if_neg hu, if_neg hu]
        unfold Yot.apply
        simp only [DOverlay.plain, this]
        rfl

end Yot
