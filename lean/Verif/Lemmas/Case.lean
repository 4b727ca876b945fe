import Verif.Spec.Query
import Verif.Lemmas.Tac
/-
Letter case.
-/
namespace Yot
open Spec
theorem val_eq {a b : Char} : a = b ↔ a.toNat = b.toNat := by
  constructor
  · rintro rfl; rfl
  · exact fun h => Char.toNat_inj.1 h
theorem toLower_toNat (c : Char) : c.toLower.toNat = if 65 ≤ c.toNat ∧ c.toNat ≤ 90 then c.toNat + 32 else c.toNat := by
  unfold Char.toLower
  have hh : (c.val ≥ 'A'.val ∧ c.val ≤ 'Z'.val) ↔ (65 ≤ c.toNat ∧ c.toNat ≤ 90) := by
    rw [ge_iff_le, UInt32.le_iff_toNat_le, UInt32.le_iff_toNat_le]; rfl
  split
  · rename_i h
    rw [if_pos (hh.1 h)]
    show (c.val + ('a'.val - 'A'.val)).toNat = _
    rw [UInt32.toNat_add]
    have : ('a'.val - 'A'.val).toNat = 32 := by decide
    rw [this]
    have := (hh.1 h)
    unfold Char.toNat at *
    omega
  · rename_i h
    rw [if_neg (fun h' => h (hh.2 h'))]
theorem toUpper_toNat (c : Char) : c.toUpper.toNat = if 97 ≤ c.toNat ∧ c.toNat ≤ 122 then c.toNat - 32 else c.toNat := by
  unfold Char.toUpper
  have hh : ('a'.val ≤ c.val ∧ c.val ≤ 'z'.val) ↔ (97 ≤ c.toNat ∧ c.toNat ≤ 122) := by
    rw [UInt32.le_iff_toNat_le, UInt32.le_iff_toNat_le]; rfl
  split
  · rename_i h
    rw [if_pos (hh.1 h)]
    show (c.val + ('A'.val - 'a'.val)).toNat = _
    rw [UInt32.toNat_add]
    have : ('A'.val - 'a'.val).toNat = 4294967264 := by decide
    rw [this]
    have := (hh.1 h)
    unfold Char.toNat at *
    omega
  · rename_i h
    rw [if_neg (fun h' => h (hh.2 h'))]
/-- The characters that lower-case to an ASCII lower-case letter. -/
theorem toLower_iff (c l : Char) (hl : 97 ≤ l.toNat ∧ l.toNat ≤ 122) : c.toLower = l ↔ c = l ∨ c = l.toUpper := by
  simp only [val_eq, toLower_toNat, toUpper_toNat]
  split <;> omega

theorem map_toLower_iff (w word : Str) (hl : ∀ l ∈ word, 97 ≤ l.toNat ∧ l.toNat ≤ 122) :
    w.map Char.toLower = word ↔ AnyCase w word := by
  unfold AnyCase
  induction w generalizing word with
  | nil => cases word <;> simp
  | cons c w ih =>
    cases word with
    | nil => simp
    | cons l word =>
      rw [List.map_cons, List.cons.injEq, List.forall₂_cons, toLower_iff c l (hl l (by simp)),
        ih word (fun x hx => hl x (by simp [hx]))]

theorem goLower_iff (c l : Char) (hl : 97 ≤ l.toNat ∧ l.toNat ≤ 122) :
    goLower c = l ↔ c = l ∨ c = l.toUpper ∨ (c = '\u0130' ∧ l = 'i') ∨ (c = '\u212a' ∧ l = 'k') := by
  unfold goLower
  by_cases h1 : c = '\u0130'
  · subst h1
    simp only [if_true, val_eq, toUpper_toNat, true_and]
    have : ('\u0130').toNat = 304 := rfl
    have : ('\u212a').toNat = 8490 := rfl
    have : ('i').toNat = 105 := rfl
    have : ('k').toNat = 107 := rfl
    split <;> omega
  · by_cases h2 : c = '\u212a'
    · subst h2
      simp only [if_true, val_eq, toUpper_toNat, true_and]
      have : ('\u0130').toNat = 304 := rfl
      have : ('\u212a').toNat = 8490 := rfl
      have : ('i').toNat = 105 := rfl
      have : ('k').toNat = 107 := rfl
      split <;> omega
    · rw [if_neg h1, if_neg h2, toLower_iff c l hl]
      simp [h1, h2]

theorem toLowerStr_iff (w word : Str) (hl : ∀ l ∈ word, 97 ≤ l.toNat ∧ l.toNat ≤ 122) :
    toLowerStr w = word ↔ AnyCaseU w word := by
  unfold AnyCaseU toLowerStr
  induction w generalizing word with
  | nil => cases word <;> simp
  | cons c w ih =>
    cases word with
    | nil => simp
    | cons l word =>
      rw [List.map_cons, List.cons.injEq, List.forall₂_cons, goLower_iff c l (hl l (by simp)),
        ih word (fun x hx => hl x (by simp [hx]))]

end Yot
