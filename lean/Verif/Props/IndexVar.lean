import Verif.Model.IndexVar
import Verif.Lemmas.Validator
/-!
# C30: index variables
-/

namespace Peak

namespace IVp

theorem decodeFrom_spec (e : IEnc) (n v : Nat) : ∀ k, k ≤ n →
    (∀ i, e.decodeFrom n v k = .ok i → n - k ≤ i ∧ i < n ∧ v = e.translate n i) ∧
    (∀ err, e.decodeFrom n v k = .error err → err = .valueError ∧ ∀ i, n - k ≤ i → i < n → v ≠ e.translate n i) := by
  intro k
  induction k with
  | zero =>
    intro _
    refine ⟨fun i h => by simp [IEnc.decodeFrom] at h, fun err h => ⟨by simp [IEnc.decodeFrom] at h; exact h.symm, fun i h1 h2 => by omega⟩⟩
  | succ k ih =>
    intro hk
    obtain ⟨h1, h2⟩ := ih (by omega)
    unfold IEnc.decodeFrom
    split
    · next hv =>
      refine ⟨fun i h => ?_, fun err h => by cases h⟩
      cases h
      exact ⟨Nat.le_refl _, by omega, hv⟩
    · next hv =>
      refine ⟨fun i h => ?_, fun err h => ⟨(h2 err h).1, fun i hi1 hi2 => ?_⟩⟩
      · obtain ⟨a, b, c⟩ := h1 i h
        exact ⟨by omega, b, c⟩
      · by_cases hi : i = n - (k + 1)
        · rw [hi]; exact hv
        · exact (h2 err h).2 i (by omega) hi2

theorem translate_inj (e : IEnc) (n i j : Nat) (h : e.translate n i = e.translate n j) : i = j := by
  cases e with
  | oneHot => exact (Nat.pow_right_inj (by omega)).mp h
  | binary => exact h

theorem binary_len_le {n : Nat} (hn : 1 ≤ n) : n ≤ 2 ^ IEnc.varLen .binary n := by
  obtain ⟨m, rfl⟩ : ∃ m, n = m + 1 := ⟨n - 1, by omega⟩
  simp only [IEnc.varLen]
  split
  · omega
  · exact lt_two_pow_bitLength m

theorem translate_lt (e : IEnc) {n i : Nat} (hi : i < n) : e.translate n i < 2 ^ e.varLen n := by
  cases e with
  | oneHot => exact Nat.pow_lt_pow_right (by omega) hi
  | binary => exact Nat.lt_of_lt_of_le hi (binary_len_le (by omega))

theorem eqInt_iff (e : IEnc) {n i : Nat} (hi : i < n) (var : BV) (hv : var.size = e.varLen n) :
    var.eqInt (e.translate n i) = true ↔ var.val = e.translate n i := by
  unfold BV.eqInt
  rw [hv, Nat.mod_eq_of_lt (translate_lt e hi)]
  simp

theorem pow_and_pred (i : Nat) : 2 ^ i &&& (2 ^ i - 1) = 0 := by
  apply Nat.eq_of_testBit_eq
  intro j
  simp

theorem isValid_iff (e : IEnc) {n : Nat} (hn : 1 ≤ n) (var : BV) (hv : var.size = e.varLen n) :
    e.isValid n var = true ↔ ∃ i, i < n ∧ var.val = e.translate n i := by
  cases e with
  | oneHot =>
    have hlt := var.isLt
    have hv' : var.size = n := hv
    simp only [IEnc.isValid, BV.eqInt, Bool.and_eq_true, beq_iff_eq, Bool.not_eq_true', beq_eq_false_iff_ne, Nat.zero_mod,
      and_pred_val]
    constructor
    · rintro ⟨h1, h2⟩
      obtain ⟨i, hi⟩ := eq_two_pow_of_and_pred h1 h2
      refine ⟨i, ?_, hi⟩
      rw [hi, hv'] at hlt
      exact (Nat.pow_lt_pow_iff_right (by omega)).mp hlt
    · rintro ⟨i, _, hi⟩
      simp only [IEnc.translate] at hi
      rw [hi]
      exact ⟨pow_and_pred i, by have := Nat.two_pow_pos i; omega⟩
  | binary =>
    have hlt := var.isLt
    simp only [IEnc.isValid, IEnc.translate]
    have hle := binary_len_le hn
    split
    · next h =>
      refine ⟨fun _ => ⟨var.val, ?_, rfl⟩, fun _ => rfl⟩
      rw [h, ← hv]; exact hlt
    · next h =>
      have : n % 2 ^ var.size = n := Nat.mod_eq_of_lt (by rw [hv]; omega)
      rw [this]
      simp

end IVp

/-- C30: let `var` be any value of an index variable for `n ≥ 1` alternatives.  It satisfies the validity constraint exactly when
it satisfies one and only one of the `n` match constraints. -/
theorem C30_valid_iff_unique (e : IEnc) (n : Nat) (hn : 1 ≤ n) (var : BV) (hv : var.size = e.varLen n) :
    e.isValid n var = true ↔
    ∃ i : Nat, i < n ∧ e.matchIndex n var i = .ok true ∧ ∀ j : Nat, j < n → e.matchIndex n var j = .ok true → j = i := by
  have hm : ∀ i : Nat, i < n → (e.matchIndex n var i = .ok true ↔ var.val = e.translate n i) := by
    intro i hi
    rw [← IVp.eqInt_iff e hi var hv]
    simp [IEnc.matchIndex, hi]
  rw [IVp.isValid_iff e hn var hv]
  constructor
  · rintro ⟨i, hi, h⟩
    exact ⟨i, hi, (hm i hi).mpr h, fun j hj hjm => IVp.translate_inj e n j i (((hm j hj).mp hjm).symm.trans h)⟩
  · rintro ⟨i, hi, h, _⟩
    exact ⟨i, hi, (hm i hi).mp h⟩

/-- C30: `decode` of the variable's value returns the index whose match constraint holds, and raises ValueError exactly when none
does; no two match constraints hold together. -/
theorem C30_decode (e : IEnc) (n : Nat) (var : BV) (hv : var.size = e.varLen n) (i : Nat) :
    (e.decode n var.val = .ok i ↔ i < n ∧ e.matchIndex n var i = .ok true) ∧
    ((∃ err, e.decode n var.val = .error err) ↔ ∀ j : Nat, j < n → e.matchIndex n var j = .ok false) ∧
    (∀ err, e.decode n var.val = .error err → err = .valueError) := by
  have hm : ∀ i : Nat, i < n → (e.matchIndex n var i = .ok true ↔ var.val = e.translate n i) := by
    intro i hi
    rw [← IVp.eqInt_iff e hi var hv]
    simp [IEnc.matchIndex, hi]
  have hf : ∀ i : Nat, i < n → (e.matchIndex n var i = .ok false ↔ var.val ≠ e.translate n i) := by
    intro i hi
    rw [ne_eq, ← IVp.eqInt_iff e hi var hv]
    simp [IEnc.matchIndex, hi]
  obtain ⟨h1, h2⟩ := IVp.decodeFrom_spec e n var.val n (Nat.le_refl n)
  refine ⟨⟨fun h => ?_, fun ⟨hi, h⟩ => ?_⟩, ⟨fun ⟨err, h⟩ j hj => ?_, fun h => ?_⟩, fun err h => (h2 err h).1⟩
  · obtain ⟨_, b, c⟩ := h1 i h
    exact ⟨b, (hm i b).mpr c⟩
  · have hval := (hm i hi).mp h
    cases hd : e.decodeFrom n var.val n with
    | ok j =>
      obtain ⟨_, _, c⟩ := h1 j hd
      have : j = i := IVp.translate_inj e n j i (c.symm.trans hval)
      subst this
      exact hd
    | error err => exact absurd hval ((h2 err hd).2 i (by omega) hi)
  · exact (hf j hj).mpr ((h2 err h).2 j (by omega) hj)
  · cases hd : e.decodeFrom n var.val n with
    | ok j =>
      obtain ⟨_, b, c⟩ := h1 j hd
      exact absurd c ((hf j b).mp (h j b))
    | error err => exact ⟨err, hd⟩

/-- C30: every index is reachable: some value of the variable is valid and selects it (decode returns it). -/
theorem C30_reachable (e : IEnc) (n i : Nat) (hi : i < n) :
    ∃ var : BV, var.size = e.varLen n ∧ e.isValid n var = true ∧ e.matchIndex n var i = .ok true ∧
      e.decode n var.val = .ok i := by
  refine ⟨⟨e.varLen n, e.translate n i, IVp.translate_lt e hi⟩, rfl, ?_, ?_, ?_⟩
  · exact (IVp.isValid_iff e (by omega) _ rfl).mpr ⟨i, hi, rfl⟩
  · have := (IVp.eqInt_iff e hi ⟨e.varLen n, e.translate n i, IVp.translate_lt e hi⟩ rfl).mpr rfl
    simp [IEnc.matchIndex, hi, this]
  · refine ((C30_decode e n ⟨e.varLen n, e.translate n i, IVp.translate_lt e hi⟩ rfl i).1).mpr ⟨hi, ?_⟩
    have := (IVp.eqInt_iff e hi ⟨e.varLen n, e.translate n i, IVp.translate_lt e hi⟩ rfl).mpr rfl
    simp [IEnc.matchIndex, hi, this]

/-- C30: indices outside `0 .. n-1` (negative ones included) are rejected with a ValueError; those inside are accepted. -/
theorem C30_out_of_range (e : IEnc) (n : Nat) (var : BV) (i : Int) :
    (e.matchIndex n var i = .error .valueError ↔ i < 0 ∨ (n : Int) ≤ i) ∧
    ((∃ b, e.matchIndex n var i = .ok b) ↔ 0 ≤ i ∧ i < n) := by
  unfold IEnc.matchIndex
  split
  · next h => exact ⟨⟨fun h => (by cases h), fun _ => by omega⟩, ⟨fun _ => h, fun _ => ⟨_, rfl⟩⟩⟩
  · next h => exact ⟨⟨fun _ => by omega, fun _ => rfl⟩, ⟨fun hb => (by obtain ⟨b, hb⟩ := hb; cases hb), fun h' => absurd h' h⟩⟩

/-- Five alternatives: the one-hot variable has 5 bits, the binary one 3; pattern 6 is valid for neither, pattern 4 selects index 2
or 4. -/
example : IEnc.varLen .oneHot 5 = 5 ∧ IEnc.varLen .binary 5 = 3 ∧
    IEnc.isValid .oneHot 5 (BV.ofNat 5 6) = false ∧ IEnc.isValid .binary 5 (BV.ofNat 3 6) = false ∧
    IEnc.isValid .oneHot 5 (BV.ofNat 5 4) = true ∧ IEnc.decode .oneHot 5 4 = .ok 2 ∧ IEnc.decode .binary 5 4 = .ok 4 :=
  ⟨rfl, rfl, by decide, by decide, by decide, rfl, rfl⟩

end Peak
