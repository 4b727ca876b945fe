import Verif.Model.Str
/-
Specification: decimal texts.
-/
namespace Yot.Spec

/-- The ten decimal digits. -/
def digitChars : Str := c!"0123456789"

/-- The number a digit stands for. -/
def digitVal (c : Char) : Nat := digitChars.idxOf c

/-- A non-empty text of decimal digits. -/
def Digits (s : Str) : Prop := s ≠ [] ∧ ∀ c ∈ s, c ∈ digitChars

instance (s : Str) : Decidable (Digits s) := by unfold Digits; infer_instance

/-- The number a text of digits stands for. -/
def decVal (s : Str) : Nat := s.foldl (fun n c => 10 * n + digitVal c) 0

/-- The text `s` is a decimal integer, optionally signed, with value `x`. -/
def IntText (s : Str) (x : Int) : Prop :=
  ∃ ds, Digits ds ∧ ((s = ds ∧ x = decVal ds) ∨ (s = '+' :: ds ∧ x = decVal ds) ∨
    (s = '-' :: ds ∧ x = -(decVal ds : Int)))

/-- The usual spelling of an integer: no plus sign, no leading zero, no `-0`. -/
def Canonical (s : Str) : Prop :=
  ∃ ds, Digits ds ∧ (1 < ds.length → ds.head? ≠ some '0') ∧
    (s = ds ∨ (s = '-' :: ds ∧ ds ≠ ['0']))

/-- The range of a 64-bit signed integer. -/
def InRange (x : Int) : Prop := -(2 : Int) ^ 63 ≤ x ∧ x < (2 : Int) ^ 63

/-- The accepted spellings of true and false. -/
def trueWords : List Str := [c!"1", c!"t", c!"T", c!"TRUE", c!"true", c!"True"]
/-- See `trueWords`. -/
def falseWords : List Str := [c!"0", c!"f", c!"F", c!"FALSE", c!"false", c!"False"]

/-- The text `s` spells the truth value `b`. -/
def BoolText (s : Str) (b : Bool) : Prop := s ∈ (if b then trueWords else falseWords)

end Yot.Spec
