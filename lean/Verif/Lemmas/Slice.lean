import Verif.Spec.Slice
import Verif.Lemmas.Base
import Verif.Model.Replay
/- Lemmas on byte ranges, reads at an offset and in-place writes. -/
namespace Notatin
open Spec

theorem length_slice (bs : Bytes) (o k : Nat) (h : o + k ≤ bs.length) : (slice bs o k).length = k := by
  simp [slice]; omega

theorem getElem?_slice (bs : Bytes) (o k i : Nat) :
    (slice bs o k)[i]? = if i < k then bs[o + i]? else none := by
  simp only [slice, List.getElem?_take, List.getElem?_drop]

theorem slice_ext {a b : Bytes} {o k : Nat} (h : ∀ i, o ≤ i → i < o + k → a[i]? = b[i]?) :
    slice a o k = slice b o k := by
  apply List.ext_getElem?
  intro i
  rw [getElem?_slice, getElem?_slice]
  split
  · exact h _ (by omega) (by omega)
  · rfl

theorem slice_slice (bs : Bytes) (o k o2 k2 : Nat) (h : o2 + k2 ≤ k) :
    slice (slice bs o k) o2 k2 = slice bs (o + o2) k2 := by
  apply List.ext_getElem?
  intro i
  simp only [getElem?_slice]
  split
  · rw [if_pos (by omega)]; congr 1; omega
  · rfl

theorem slice_zero_take (bs : Bytes) (k : Nat) : slice bs 0 k = bs.take k := by simp [slice]

theorem getRange_eq (bs : Bytes) (a b : Nat) (h1 : a ≤ b) (h2 : b ≤ bs.length) :
    getRange bs a b = some (slice bs a (b - a)) := by
  simp [getRange, h1, h2, slice]

theorem leUint_drop (k : Nat) (bs : Bytes) (o : Nat) (h : o + k ≤ bs.length) :
    leUint k (bs.drop o) = some (leNat (slice bs o k), bs.drop (o + k)) := by
  unfold leUint slice
  rw [if_pos (by simp; omega), List.drop_drop]

theorem leUint_drop_none (k : Nat) (bs : Bytes) (o : Nat) (h : bs.length < o + k) :
    leUint k (bs.drop o) = none ∨ k = 0 := by
  unfold leUint
  by_cases hk : k = 0
  · exact .inr hk
  · left; rw [if_neg (by simp; omega)]

theorem leI32_drop (bs : Bytes) (o : Nat) (h : o + 4 ≤ bs.length) :
    leI32 (bs.drop o) = some (toI32 (leNat (slice bs o 4)), bs.drop (o + 4)) := by
  unfold leI32; rw [leUint_drop 4 bs o h]

theorem take_drop (k : Nat) (bs : Bytes) (o : Nat) (h : o + k ≤ bs.length) :
    Notatin.take k (bs.drop o) = some (slice bs o k, bs.drop (o + k)) := by
  unfold Notatin.take slice
  rw [if_pos (by simp; omega), List.drop_drop]

theorem writeAt_eq (buf : Bytes) (off : Nat) (src : Bytes) (h : off + src.length ≤ buf.length) :
    ∃ b, writeAt buf off src = some b ∧ b.length = buf.length ∧
      ∀ i, b[i]? = if off ≤ i ∧ i < off + src.length then src[i - off]? else buf[i]? := by
  refine ⟨_, by rw [writeAt, if_pos h], by simp; omega, ?_⟩
  intro i
  have hl : (buf.take off).length = off := by simp; omega
  by_cases h1 : i < off
  · rw [if_neg (by omega), List.append_assoc, List.getElem?_append_left (by omega),
      List.getElem?_take, if_pos h1]
  · by_cases h2 : i < off + src.length
    · rw [if_pos (by omega), List.getElem?_append_left (by rw [List.length_append]; omega),
        List.getElem?_append_right (by omega), hl]
    · rw [if_neg (by omega), List.getElem?_append_right (by rw [List.length_append]; omega),
        List.getElem?_drop]
      congr 1
      rw [List.length_append, hl]; omega

theorem writeAt_none (buf : Bytes) (off : Nat) (src : Bytes) (h : buf.length < off + src.length) :
    writeAt buf off src = none := by rw [writeAt, if_neg (by omega)]

theorem u32ToLeBytes_eq (n : Nat) : u32ToLeBytes n = encLE 4 n := by
  simp only [u32ToLeBytes, encLE, Nat.div_div_eq_div_mul]
  have h : ∀ m, UInt8.ofNat (m % 256) = UInt8.ofNat m := by
    intro m; apply UInt8.toNat.inj; simp
  simp [h]

end Notatin
