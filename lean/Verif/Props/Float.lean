import Verif.Model.Float
/-!
# C42, C50: rounding modes
-/

namespace Peak

/-- Specification: what the modes mean, by their IEEE 754 names. -/
inductive Ieee
  | tiesToEven | towardZero | towardNegative | towardPositive | tiesToAway
deriving DecidableEq

/-- The meaning of the RISC-V style names used by peak. -/
def RM.meaning : RM → Ieee
  | .RNE => .tiesToEven | .RTZ => .towardZero | .RDN => .towardNegative | .RUP => .towardPositive | .RMM => .tiesToAway

/-- The meaning of the SMT-LIB names used by the host library. -/
def HostRM.meaning : HostRM → Ieee
  | .RNE => .tiesToEven | .RTZ => .towardZero | .RTN => .towardNegative | .RTP => .towardPositive | .RNA => .tiesToAway

/-- C42: translation to the host library keeps the meaning, and both directions are inverse. -/
theorem C42_host : (∀ rm, (rmToHost rm).meaning = rm.meaning) ∧ (∀ h, (hostToRm h).meaning = h.meaning) ∧
    (∀ rm, hostToRm (rmToHost rm) = rm) ∧ (∀ h, rmToHost (hostToRm h) = h) := by
  refine ⟨fun rm => by cases rm <;> rfl, fun h => by cases h <;> rfl, fun rm => by cases rm <;> rfl, fun h => by cases h <;> rfl⟩

/-- C42: every mode survives encoding to a 3-bit code and back, codes of different modes differ, the code is the mode's value, and every
code of 4 or above decodes to RMM. -/
theorem C42_codes : (∀ rm, toRm (fromRm rm) = rm) ∧ (∀ rm rm', fromRm rm = fromRm rm' → rm = rm') ∧
    (∀ rm, fromRm rm = rm.value ∧ fromRm rm < 8) ∧ (∀ c, 4 ≤ c → toRm c = .RMM) ∧ (∀ c, c < 5 → fromRm (toRm c) = c) := by
  have h1 : ∀ rm, toRm (fromRm rm) = rm := by intro rm; cases rm <;> decide
  refine ⟨h1, fun a b h => by rw [← h1 a, h, h1], fun rm => by cases rm <;> decide, fun c hc => ?_, fun c hc => ?_⟩
  · unfold toRm
    have : bv3 .RNE = 0 ∧ bv3 .RTZ = 1 ∧ bv3 .RDN = 2 ∧ bv3 .RUP = 3 := by decide
    rw [if_neg (by omega), if_neg (by omega), if_neg (by omega), if_neg (by omega)]
  · have : c = 0 ∨ c = 1 ∨ c = 2 ∨ c = 3 ∨ c = 4 := by omega
    rcases this with rfl | rfl | rfl | rfl | rfl <;> decide

/-- C50, the part that holds: with a rounding-mode input, RNE and RTZ are performed with the requested mode; with a constant rounding
mode every operation but fused multiply-add is. -/
theorem C50_modes_partial :
    (∀ rm, rm = .RNE ∨ rm = .RTZ → ∃ h, opHostMode rm = .ok h ∧ h.meaning = rm.meaning) ∧
    (∀ k rm, k ≠ FpKind.fma → ∃ h, constHostMode k rm = .ok h ∧ h.meaning = rm.meaning) := by
  refine ⟨?_, ?_⟩
  · rintro rm (rfl | rfl)
    · exact ⟨.RNE, by simp [opHostMode, hostMember], rfl⟩
    · exact ⟨.RTZ, by simp [opHostMode, hostMember], rfl⟩
  · intro k rm hk
    refine ⟨rmToHost rm, ?_, C42_host.1 rm⟩
    cases k <;> first | rfl | exact absurd rfl hk

/-- C50 fails: operations asked to round down, up or to nearest-away raise AttributeError in the Python family, and the constant-mode
fused multiply-add raises NameError. -/
theorem C50_violated :
    (∀ rm, rm ≠ .RNE → rm ≠ .RTZ → opHostMode rm = .error .attributeError) ∧
    (∀ rm, constHostMode .fma rm = .error .nameError) := by
  refine ⟨fun rm h1 h2 => ?_, fun rm => rfl⟩
  cases rm <;> first | exact absurd rfl h1 | exact absurd rfl h2 | simp [opHostMode, hostMember]

end Peak
