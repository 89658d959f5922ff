import Verif.Model.Filter
import Verif.Spec.Tree
import Verif.Lemmas.Text
/-
ASCII case folding.
-/
namespace Notatin
open Spec

theorem charLe_iff (a b : Char) : a ≤ b ↔ a.toNat ≤ b.toNat := Iff.rfl

/-- One character of `asciiLower`. -/
def lowerChar (c : Char) : Char := if 'A' ≤ c ∧ c ≤ 'Z' then Char.ofNat (c.toNat + 32) else c

theorem asciiLower_eq_map (s : Str) : asciiLower s = s.map lowerChar := rfl

theorem toNat_lowerChar (c : Char) :
    (lowerChar c).toNat = if 65 ≤ c.toNat ∧ c.toNat ≤ 90 then c.toNat + 32 else c.toNat := by
  unfold lowerChar
  have e1 : ('A' ≤ c ∧ c ≤ 'Z') = (65 ≤ c.toNat ∧ c.toNat ≤ 90) := rfl
  by_cases h : 65 ≤ c.toNat ∧ c.toNat ≤ 90
  · simp only [e1, if_pos h]
    have hv : (c.toNat + 32).isValidChar := .inl (by omega)
    exact toNat_ofNat_of_valid hv
  · simp only [e1, if_neg h]

theorem lowerChar_eq_iff (a b : Char) : lowerChar a = lowerChar b ↔ SameLetter a b := by
  rw [← Char.toNat_inj, toNat_lowerChar, toNat_lowerChar]
  unfold SameLetter UpperLower
  rw [← Char.toNat_inj]
  split <;> split <;> omega

theorem asciiLower_eq_iff (s t : Str) : asciiLower s = asciiLower t ↔ SameIgnoringCase s t := by
  unfold SameIgnoringCase
  rw [asciiLower_eq_map, asciiLower_eq_map]
  induction s generalizing t with
  | nil => cases t <;> simp [Pairwise2]
  | cons a s ih =>
    cases t with
    | nil => simp [Pairwise2]
    | cons b t =>
      rw [List.map_cons, List.map_cons, List.cons.injEq, lowerChar_eq_iff, ih]
      rfl

theorem lowerChar_idem (c : Char) : lowerChar (lowerChar c) = lowerChar c := by
  rw [← Char.toNat_inj, toNat_lowerChar, toNat_lowerChar]
  split
  · rw [if_neg (by omega)]
  · rfl

theorem asciiLower_idem (s : Str) : asciiLower (asciiLower s) = asciiLower s := by
  simp only [asciiLower_eq_map, List.map_map]
  apply List.map_congr_left
  intro c _
  exact lowerChar_idem c

theorem lowerChar_backslash (c : Char) : lowerChar c = '\\' ↔ c = '\\' := by
  rw [← Char.toNat_inj, ← Char.toNat_inj, toNat_lowerChar]
  have : ('\\' : Char).toNat = 92 := rfl
  rw [this]
  split <;> omega

theorem sameIgnoringCase_refl (s : Str) : SameIgnoringCase s s := (asciiLower_eq_iff s s).1 rfl

instance (s t : Str) : Decidable (SameIgnoringCase s t) :=
  decidable_of_iff _ (asciiLower_eq_iff s t)

end Notatin
