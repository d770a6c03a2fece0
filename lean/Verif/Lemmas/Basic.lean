import Verif.Model.Basic

namespace Peak

theorem bitLength_le_iff (n w : Nat) : bitLength n ≤ w ↔ n < 2 ^ w := by
  unfold bitLength
  split
  · next h => subst h; simp [Nat.two_pow_pos]
  · next h => rw [← Nat.log2_lt h]; omega

theorem lt_two_pow_bitLength (n : Nat) : n < 2 ^ bitLength n :=
  (bitLength_le_iff n _).1 (Nat.le_refl _)

theorem BV.ext {x y : BV} (h1 : x.size = y.size) (h2 : x.val = y.val) : x = y := by
  cases x; cases y; simp at h1 h2; subst h1; subst h2; rfl

@[simp] theorem BV.ofNat_size (n v : Nat) : (BV.ofNat n v).size = n := rfl
@[simp] theorem BV.ofNat_val (n v : Nat) : (BV.ofNat n v).val = v % 2 ^ n := rfl

theorem BV.ofNat_val_of_lt {n v : Nat} (h : v < 2 ^ n) : (BV.ofNat n v).val = v :=
  Nat.mod_eq_of_lt h

@[simp] theorem BV.ofNat_self (b : BV) : BV.ofNat b.size b.val = b :=
  BV.ext rfl (Nat.mod_eq_of_lt b.isLt)

theorem BV.slice_size (b : BV) {lo hi : Nat} (h : hi ≤ b.size) : (b.slice lo hi).size = hi - lo := by
  simp [BV.slice, Nat.min_eq_left h]

theorem BV.slice_val (b : BV) {lo hi : Nat} (h : hi ≤ b.size) :
    (b.slice lo hi).val = b.val / 2 ^ lo % 2 ^ (hi - lo) := by
  simp [BV.slice, Nat.min_eq_left h]

end Peak
