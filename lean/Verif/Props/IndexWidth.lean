import Verif.Props.IndexVar
/-!
# C30: the size of an index variable
-/

namespace Peak

/-- One bit for each alternative, or the least positive number of bits that can number the alternatives. -/
theorem C30_width (n : Nat) (hn : 1 ≤ n) :
    IEnc.varLen .oneHot n = n ∧ 1 ≤ IEnc.varLen .binary n ∧ ∀ w, 1 ≤ w → (IEnc.varLen .binary n ≤ w ↔ n ≤ 2 ^ w) := by
  obtain ⟨m, rfl⟩ : ∃ m, n = m + 1 := ⟨n - 1, by omega⟩
  simp only [IEnc.varLen]
  refine ⟨trivial, ?_, fun w hw => ?_⟩
  · split
    · omega
    · next h => unfold bitLength; rw [if_neg h]; omega
  · split
    · have := Nat.two_pow_pos w
      omega
    · rw [bitLength_le_iff]
      omega

example : IEnc.varLen .binary 5 = 3 ∧ IEnc.varLen .binary 4 = 2 ∧ IEnc.varLen .binary 1 = 1 := by decide

end Peak
