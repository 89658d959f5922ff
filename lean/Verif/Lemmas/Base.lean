import Verif.Spec.Encode
namespace Notatin
open Notatin.Spec

@[simp] theorem length_encLE (k n : Nat) : (encLE k n).length = k := by
  induction k generalizing n with
  | zero => rfl
  | succ k ih => simp [encLE, ih]

@[simp] theorem length_encI32 (i : Int) : (encI32 i).length = 4 := by simp [encI32]

theorem leNat_encLE (k n : Nat) : leNat (encLE k n) = n % 256 ^ k := by
  induction k generalizing n with
  | zero => simp [encLE, leNat, Nat.mod_one]
  | succ k ih =>
    simp only [encLE, leNat, ih]
    have h : (UInt8.ofNat (n % 256)).toNat = n % 256 := by
      simp
    rw [h, Nat.pow_succ, Nat.mul_comm (256 ^ k) 256, Nat.mod_mul]

theorem leNat_encLE_of_lt {k n : Nat} (h : n < 256 ^ k) : leNat (encLE k n) = n := by
  rw [leNat_encLE, Nat.mod_eq_of_lt h]

theorem leNat_lt (bs : Bytes) : leNat bs < 256 ^ bs.length := by
  induction bs with
  | nil => simp [leNat]
  | cons b bs ih =>
    have := b.toNat_lt
    simp only [leNat, List.length_cons, Nat.pow_succ]
    omega

theorem encLE_leNat (bs : Bytes) : encLE bs.length (leNat bs) = bs := by
  induction bs with
  | nil => rfl
  | cons b bs ih =>
    have hb := b.toNat_lt
    simp only [List.length_cons, encLE, leNat]
    have h1 : (b.toNat + 256 * leNat bs) % 256 = b.toNat := by omega
    have h2 : (b.toNat + 256 * leNat bs) / 256 = leNat bs := by omega
    rw [h1, h2, ih]
    simp

theorem leNat_append (a b : Bytes) : leNat (a ++ b) = leNat a + 256 ^ a.length * leNat b := by
  induction a with
  | nil => simp [leNat]
  | cons x a ih =>
    simp only [List.cons_append, leNat, ih, List.length_cons, Nat.pow_succ]
    rw [Nat.mul_add, Nat.mul_comm (256 ^ a.length) 256, Nat.mul_assoc]; omega

theorem leNat_inj {a b : Bytes} (hl : a.length = b.length) (h : leNat a = leNat b) : a = b := by
  rw [← encLE_leNat a, ← encLE_leNat b, hl, h]

@[simp] theorem leUint_append (k : Nat) (a rest : Bytes) (h : a.length = k) :
    leUint k (a ++ rest) = some (leNat a, rest) := by
  subst h; simp [leUint]

theorem leUint_encLE {k n : Nat} (h : n < 256 ^ k) (rest : Bytes) :
    leUint k (encLE k n ++ rest) = some (n, rest) := by
  rw [leUint_append _ _ _ (length_encLE k n), leNat_encLE_of_lt h]

theorem leU16_enc {n : Nat} (h : n < 65536) (rest : Bytes) :
    leU16 (encLE 2 n ++ rest) = some (n, rest) := leUint_encLE (by simpa using h) rest

theorem leU32_enc {n : Nat} (h : n < 4294967296) (rest : Bytes) :
    leU32 (encLE 4 n ++ rest) = some (n, rest) := leUint_encLE (by simpa using h) rest

theorem leU64_enc {n : Nat} (h : n < 18446744073709551616) (rest : Bytes) :
    leU64 (encLE 8 n ++ rest) = some (n, rest) := leUint_encLE (by simpa using h) rest

theorem toI32_emod {i : Int} (h : isI32 i) : toI32 (i % 4294967296).toNat = i := by
  unfold isI32 at h; unfold toI32; split <;> omega

theorem toI32_isI32 {n : Nat} (h : n < 4294967296) : isI32 (toI32 n) := by
  unfold isI32 toI32; split <;> omega

theorem leI32_enc {i : Int} (h : isI32 i) (rest : Bytes) :
    leI32 (encI32 i ++ rest) = some (i, rest) := by
  unfold leI32 encI32
  rw [leUint_encLE (by omega)]
  simp [toI32_emod h]

@[simp] theorem take_append (n : Nat) (a rest : Bytes) (h : a.length = n) :
    Notatin.take n (a ++ rest) = some (a, rest) := by
  subst h; simp [Notatin.take]

@[simp] theorem tag_append (s rest : Bytes) : tag s (s ++ rest) = some ((), rest) := by
  simp [tag]

theorem leUint_eq_some {k : Nat} {i : Bytes} {n : Nat} {r : Bytes} :
    leUint k i = some (n, r) ↔ ∃ a, a.length = k ∧ i = a ++ r ∧ n = leNat a := by
  constructor
  · intro h
    unfold leUint at h
    split at h
    · injection h with h; injection h with h1 h2
      exact ⟨i.take k, by simp; omega, by rw [← h2, List.take_append_drop], h1.symm⟩
    · contradiction
  · rintro ⟨a, ha, rfl, rfl⟩
    exact leUint_append k a r ha

theorem take_eq_some {k : Nat} {i a r : Bytes} :
    Notatin.take k i = some (a, r) ↔ a.length = k ∧ i = a ++ r := by
  constructor
  · intro h
    unfold Notatin.take at h
    split at h
    · injection h with h; injection h with h1 h2
      subst h1 h2; simp; omega
    · contradiction
  · rintro ⟨ha, rfl⟩
    exact take_append k a r ha

theorem tag_eq_some {s i r : Bytes} {u : Unit} : tag s i = some (u, r) ↔ i = s ++ r := by
  constructor
  · intro h
    unfold tag at h
    split at h
    · rename_i ht
      injection h with h; injection h with h1 h2
      rw [← h2]; conv => lhs; rw [← List.take_append_drop s.length i, ht]
    · contradiction
  · rintro rfl; exact tag_append s r

end Notatin
