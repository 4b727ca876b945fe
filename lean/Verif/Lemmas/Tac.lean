import Mathlib.Tactic.Tauto
import Mathlib.Tactic.Conv
import Mathlib.Data.List.Basic
import Mathlib.Data.List.Forall2
/- Tactics used by the lemma files. -/
