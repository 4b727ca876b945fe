import Verif.Spec.Number
import Verif.Model.Actions
import Verif.Lemmas.Tac
namespace Yot
open Spec

theorem isDigit_iff (c : Char) : c.isDigit = true ↔ c ∈ digitChars := by
  constructor
  · intro h
    have h1 : 48 ≤ c.toNat ∧ c.toNat ≤ 57 := by
      simp only [Char.isDigit, Bool.and_eq_true, decide_eq_true_eq] at h
      obtain ⟨h1, h2⟩ := h
      constructor
      · exact h1
      · exact h2
    have h2 : c = Char.ofNat c.toNat := by simp
    have h3 : c.toNat = 48 ∨ c.toNat = 49 ∨ c.toNat = 50 ∨ c.toNat = 51 ∨ c.toNat = 52 ∨ c.toNat = 53 ∨
        c.toNat = 54 ∨ c.toNat = 55 ∨ c.toNat = 56 ∨ c.toNat = 57 := by omega
    rcases h3 with h | h | h | h | h | h | h | h | h | h <;> (rw [h] at h2; rw [h2]; decide)
  · intro h
    have : ∀ c ∈ digitChars, c.isDigit = true := by decide
    exact this c h

theorem digitVal_eq {c : Char} (h : c ∈ digitChars) : c.toNat - 48 = digitVal c := by
  have : ∀ c ∈ digitChars, c.toNat - 48 = digitVal c := by decide
  exact this c h

theorem ofNat_digit {n : Nat} (h : n < 10) :
    Char.ofNat (48 + n) ∈ digitChars ∧ digitVal (Char.ofNat (48 + n)) = n := by
  have : ∀ n < 10, Char.ofNat (48 + n) ∈ digitChars ∧ digitVal (Char.ofNat (48 + n)) = n := by decide
  exact this n h

theorem digits_fold (s : Str) (hs : ∀ c ∈ s, c ∈ digitChars) (k : Nat) :
    s.foldl (fun (acc : Option Nat) c =>
      acc.bind fun n => if c.isDigit then some (n * 10 + (c.toNat - 48)) else none) (some k)
      = some (s.foldl (fun n c => 10 * n + digitVal c) k) := by
  induction s generalizing k with
  | nil => rfl
  | cons c s ih =>
    have hc := hs c (by simp)
    simp only [List.foldl_cons, Option.bind_some, (isDigit_iff c).2 hc, if_true, digitVal_eq hc]
    rw [ih (fun c hc => hs c (by simp [hc])), Nat.mul_comm k 10]

theorem digits_fold_none (s : Str) :
    s.foldl (fun (acc : Option Nat) c =>
      acc.bind fun n => if c.isDigit then some (n * 10 + (c.toNat - 48)) else none) none = none := by
  induction s with
  | nil => rfl
  | cons c s ih => simpa using ih

theorem digits_fold_bad (s : Str) (hs : ¬ ∀ c ∈ s, c ∈ digitChars) (k : Nat) :
    s.foldl (fun (acc : Option Nat) c =>
      acc.bind fun n => if c.isDigit then some (n * 10 + (c.toNat - 48)) else none) (some k) = none := by
  induction s generalizing k with
  | nil => simp at hs
  | cons c s ih =>
    by_cases hc : c ∈ digitChars
    · simp only [List.foldl_cons, Option.bind_some, (isDigit_iff c).2 hc, if_true]
      apply ih
      intro h; apply hs
      intro d hd
      rcases List.mem_cons.1 hd with rfl | hd
      · exact hc
      · exact h d hd
    · have : ¬ c.isDigit = true := fun h => hc ((isDigit_iff c).1 h)
      simp only [List.foldl_cons, Option.bind_some, this]
      exact digits_fold_none s

theorem parseDigits_eq (s : Str) : parseDigits s = if Digits s then some (decVal s) else none := by
  cases s with
  | nil => simp [parseDigits, Digits]
  | cons c t =>
    by_cases h : ∀ d ∈ c :: t, d ∈ digitChars
    · rw [if_pos ⟨by simp, h⟩]
      unfold parseDigits
      exact digits_fold (c :: t) h 0
    · rw [if_neg (fun hd => h hd.2)]
      unfold parseDigits
      exact digits_fold_bad (c :: t) h 0

/-- `parseInt` reads exactly the decimal integers. -/
theorem parseInt_iff (s : Str) (x : Int) : parseInt s = some x ↔ IntText s x := by
  have hno : ∀ ds : Str, Digits ds → ∀ t, ds ≠ '+' :: t ∧ ds ≠ '-' :: t := by
    intro ds hd t
    constructor <;> (rintro rfl; have := hd.2 _ (List.mem_cons_self); revert this; decide)
  constructor
  · intro h
    unfold parseInt at h
    split at h
    · rename_i t
      rw [parseDigits_eq] at h
      split at h
      · rename_i hd; simp at h; exact ⟨t, hd, .inr (.inr ⟨rfl, h.symm⟩)⟩
      · simp at h
    · rename_i t
      rw [parseDigits_eq] at h
      split at h
      · rename_i hd; simp at h; exact ⟨t, hd, .inr (.inl ⟨rfl, h.symm⟩)⟩
      · simp at h
    · rw [parseDigits_eq] at h
      split at h
      · rename_i hd; simp at h; exact ⟨s, hd, .inl ⟨rfl, h.symm⟩⟩
      · simp at h
  · rintro ⟨ds, hd, ⟨rfl, rfl⟩ | ⟨rfl, rfl⟩ | ⟨rfl, rfl⟩⟩
    · unfold parseInt
      split
      · rename_i t; exact absurd rfl (hno _ hd t).2
      · rename_i t; exact absurd rfl (hno _ hd t).1
      · simp [parseDigits_eq, hd]
    · simp [parseInt, parseDigits_eq, hd]
    · simp [parseInt, parseDigits_eq, hd]

theorem inRange_iff (x : Int) : (minInt64 ≤ x ∧ x ≤ maxInt64) ↔ InRange x := by
  unfold minInt64 maxInt64 InRange
  have : (2 : Int) ^ 63 = 9223372036854775808 := by decide
  rw [this]; omega

theorem atoi_iff (s : Str) (x : Int) : atoi s = some x ↔ IntText s x ∧ InRange x := by
  unfold atoi
  constructor
  · intro h
    split at h
    · rename_i y hy
      split at h
      · rename_i hr
        simp at h; subst h
        exact ⟨(parseInt_iff s y).1 hy, (inRange_iff y).1 hr⟩
      · simp at h
    · simp at h
  · rintro ⟨h1, h2⟩
    rw [(parseInt_iff s x).2 h1]
    simp only
    rw [if_pos ((inRange_iff x).2 h2)]

theorem wrap64_id {x : Int} (h : InRange x) : wrap64 x = x := by
  rw [← inRange_iff] at h
  unfold minInt64 maxInt64 at h
  unfold wrap64; omega

/-- Digits of a number, least significant first. -/
theorem natDigitsRev_spec (fuel n : Nat) (h : n < fuel) :
    natDigitsRev fuel n ≠ [] ∧ (∀ c ∈ natDigitsRev fuel n, c ∈ digitChars) ∧
    (natDigitsRev fuel n).foldr (fun c k => 10 * k + digitVal c) 0 = n ∧
    (0 < n → (natDigitsRev fuel n).getLast? ≠ some '0') ∧
    (n = 0 → natDigitsRev fuel n = ['0']) := by
  induction fuel generalizing n with
  | zero => omega
  | succ fuel ih =>
    rw [natDigitsRev]
    split
    · rename_i hn
      obtain ⟨h1, h2⟩ := ofNat_digit hn
      refine ⟨by simp, by simpa using h1, by simp [h2], ?_, ?_⟩
      · intro hp
        simp only [List.getLast?_singleton, ne_eq, Option.some.injEq]
        intro he
        rw [he] at h2
        have : digitVal '0' = 0 := by decide
        omega
      · rintro rfl; rfl
    · rename_i hn
      have hlt : n / 10 < fuel := by omega
      obtain ⟨h1, h2, h3, h4, h5⟩ := ih (n / 10) hlt
      obtain ⟨g1, g2⟩ := ofNat_digit (show n % 10 < 10 by omega)
      refine ⟨by simp, ?_, ?_, ?_, by omega⟩
      · intro c hc
        rcases List.mem_cons.1 hc with rfl | hc
        · exact g1
        · exact h2 c hc
      · simp only [List.foldr_cons, h3, g2]; omega
      · intro _
        have : (Char.ofNat (48 + n % 10) :: natDigitsRev fuel (n / 10)).getLast?
            = (natDigitsRev fuel (n / 10)).getLast? := by
          cases hh : natDigitsRev fuel (n / 10) with
          | nil => exact absurd hh h1
          | cons a l => simp [List.getLast?_cons]
        rw [this]
        exact h4 (by omega)

theorem natToStr_spec (n : Nat) : Digits (natToStr n) ∧ decVal (natToStr n) = n ∧
    (0 < n → (natToStr n).head? ≠ some '0') ∧ (n = 0 → natToStr n = ['0']) := by
  obtain ⟨h1, h2, h3, h4, h5⟩ := natDigitsRev_spec (n + 1) n (by omega)
  unfold natToStr
  refine ⟨⟨by simpa using h1, by simpa using h2⟩, ?_, by simpa using h4, ?_⟩
  · unfold decVal
    rw [List.foldl_reverse]
    exact h3
  · intro h; rw [h5 h]; rfl

theorem itoa_spec (x : Int) : IntText (itoa x) x ∧ Canonical (itoa x) := by
  unfold itoa
  cases x with
  | ofNat n =>
    obtain ⟨h1, h2, h3, h4⟩ := natToStr_spec n
    refine ⟨⟨_, h1, .inl ⟨rfl, by rw [h2]; rfl⟩⟩, ⟨_, h1, ?_, .inl rfl⟩⟩
    intro hl
    apply h3
    cases n with
    | zero => rw [h4 rfl] at hl; simp at hl
    | succ => omega
  | negSucc n =>
    obtain ⟨h1, h2, h3, h4⟩ := natToStr_spec (n + 1)
    refine ⟨⟨_, h1, .inr (.inr ⟨rfl, by rw [h2]; rfl⟩)⟩, ⟨_, h1, fun _ => h3 (by omega), .inr ⟨rfl, ?_⟩⟩⟩
    intro he
    have := h3 (by omega)
    rw [he] at this
    simp at this

end Yot
