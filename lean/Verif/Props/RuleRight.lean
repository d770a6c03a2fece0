import Verif.Spec.RuleRight
import Verif.Lemmas.SimplifyBinding
import Verif.Lemmas.RawForms
import Verif.Props.Verify
/-!
# What a class computes is determined by what it returns

So `RuleRight` (Spec/RuleRight.lean), in which the computed functions are quantified existentially, says the same for any choice of them.
-/

namespace Peak.RR
open Peak Peak.Spec

theorem add_mul_inj {p a b c d : Nat} (ha : a < p) (hc : c < p) (h : a + p * b = c + p * d) : a = c ∧ b = d := by
  have h1 : (a + p * b) % p = a := by rw [Nat.add_mul_mod_self_left, Nat.mod_eq_of_lt ha]
  have h2 : (c + p * d) % p = c := by rw [Nat.add_mul_mod_self_left, Nat.mod_eq_of_lt hc]
  have e : a = c := by rw [← h1, ← h2, h]
  subst e
  exact ⟨rfl, Nat.eq_of_mul_eq_mul_left (Nat.lt_of_le_of_lt (Nat.zero_le _) ha) (Nat.add_left_cancel h)⟩

mutual
/-- Different raw values of a type have different codes. -/
theorem code_inj : ∀ (t : Ty) (r s : RVal), WF t → RHas t r → RHas t s → rawCode t r = rawCode t s → r = s
  | .bv _ _, .leaf _, .leaf _, _, _, _, h => by simpa [rawCode] using h
  | .bit _, .leaf _, .leaf _, _, _, _, h => by simpa [rawCode] using h
  | .enum _ _, .leaf _, .leaf _, _, _, _, h => by simpa [rawCode] using h
  | .prod _ fs, .prod vs, .prod ws, hw, hr, hs, h => by rw [codeAll_inj fs vs ws hw.2 hr hs h]
  | .sum _ fs, .sum k v, .sum k' v', hw, hr, hs, h => by
    obtain ⟨_, i, t, hi⟩ := SB.codeAt_lt fs k v hw.2.2 hw.2.1 hr
    obtain ⟨_, j, u, hj⟩ := SB.codeAt_lt fs k' v' hw.2.2 hw.2.1 hs
    simp only [rawCode, optionIndex_of_get hw.2.1 hi, optionIndex_of_get hw.2.1 hj] at h
    obtain ⟨e, h'⟩ := add_mul_inj (lt_tagBits (List.getElem?_eq_some_iff.1 hi).1) (lt_tagBits (List.getElem?_eq_some_iff.1 hj).1) h
    subst e
    rw [hi, Option.some.injEq, Prod.mk.injEq] at hj
    obtain ⟨rfl, rfl⟩ := hj
    rw [codeAt_inj fs k v v' hw.2.2 hr hs h']
  | .bv _ _, .prod _, _, _, h, _, _ => by simp [RHas] at h
  | .bv _ _, .sum _ _, _, _, h, _, _ => by simp [RHas] at h
  | .bit _, .prod _, _, _, h, _, _ => by simp [RHas] at h
  | .bit _, .sum _ _, _, _, h, _, _ => by simp [RHas] at h
  | .enum _ _, .prod _, _, _, h, _, _ => by simp [RHas] at h
  | .enum _ _, .sum _ _, _, _, h, _, _ => by simp [RHas] at h
  | .prod _ _, .leaf _, _, _, h, _, _ => by simp [RHas] at h
  | .prod _ _, .sum _ _, _, _, h, _, _ => by simp [RHas] at h
  | .sum _ _, .leaf _, _, _, h, _, _ => by simp [RHas] at h
  | .sum _ _, .prod _, _, _, h, _, _ => by simp [RHas] at h
  | .bv _ _, .leaf _, .prod _, _, _, h, _ => by simp [RHas] at h
  | .bv _ _, .leaf _, .sum _ _, _, _, h, _ => by simp [RHas] at h
  | .bit _, .leaf _, .prod _, _, _, h, _ => by simp [RHas] at h
  | .bit _, .leaf _, .sum _ _, _, _, h, _ => by simp [RHas] at h
  | .enum _ _, .leaf _, .prod _, _, _, h, _ => by simp [RHas] at h
  | .enum _ _, .leaf _, .sum _ _, _, _, h, _ => by simp [RHas] at h
  | .prod _ _, .prod _, .leaf _, _, _, h, _ => by simp [RHas] at h
  | .prod _ _, .prod _, .sum _ _, _, _, h, _ => by simp [RHas] at h
  | .sum _ _, .sum _ _, .leaf _, _, _, h, _ => by simp [RHas] at h
  | .sum _ _, .sum _ _, .prod _, _, _, h, _ => by simp [RHas] at h
theorem codeAll_inj : ∀ (fs : Fields) (vs ws : List RVal), WFs fs → RHasAll fs vs → RHasAll fs ws → rawCodeAll fs vs = rawCodeAll fs ws → vs = ws
  | .nil, [], [], _, _, _, _ => rfl
  | .nil, _ :: _, _, _, h, _, _ => by simp [RHasAll] at h
  | .nil, [], _ :: _, _, _, h, _ => by simp [RHasAll] at h
  | .cons _ t fs, [], _, _, h, _, _ => by simp [RHasAll] at h
  | .cons _ t fs, _ :: _, [], _, _, h, _ => by simp [RHasAll] at h
  | .cons _ t fs, v :: vs, w :: ws, hw, hr, hs, h => by
    simp only [rawCodeAll] at h
    obtain ⟨h1, h2⟩ := add_mul_inj (SB.code_lt t v hw.1 hr.1) (SB.code_lt t w hw.1 hs.1) h
    rw [code_inj t v w hw.1 hr.1 hs.1 h1, codeAll_inj fs vs ws hw.2 hr.2 hs.2 h2]
theorem codeAt_inj : ∀ (fs : Fields) (k : Key) (v w : RVal), WFs fs → RHasAt fs k v → RHasAt fs k w → rawCodeAt fs k v = rawCodeAt fs k w → v = w
  | .nil, _, _, _, _, h, _, _ => by simp [RHasAt] at h
  | .cons k' t fs, k, v, w, hw, hr, hs, h => by
    simp only [RHasAt, rawCodeAt] at hr hs h
    by_cases e : k = k'
    · simp only [e, if_true] at hr hs h
      exact code_inj t v w hw.1 hr hs h
    · simp only [e, if_false] at hr hs h
      exact codeAt_inj fs k v w hw.2 hr hs h
end

theorem fields_unique {P : Process} : ∀ (fs : Fields) (vs ws : List RVal) (xs : List AV), WFs fs → RHasAll fs vs → RHasAll fs ws →
    AreFields P fs vs xs → AreFields P fs ws xs → vs = ws
  | .nil, [], [], _, _, _, _, _, _ => rfl
  | .nil, _ :: _, _, _, _, h, _, _, _ => by simp [RHasAll] at h
  | .nil, [], _ :: _, _, _, _, h, _, _ => by simp [RHasAll] at h
  | .cons _ t fs, [], _, _, _, h, _, _, _ => by simp [RHasAll] at h
  | .cons _ t fs, _ :: _, [], _, _, _, h, _, _ => by simp [RHasAll] at h
  | .cons _ t fs, v :: vs, w :: ws, [], _, _, _, h, _ => by simp [AreFields] at h
  | .cons _ t fs, v :: vs, w :: ws, x :: xs, hw, hr, hs, h, h' => by
    simp only [AreFields] at h h'
    have e := h.1.symm.trans h'.1
    rw [Except.ok.injEq] at e
    have := RF.mkAV_inj (SB.code_lt t v hw.1 hr.1) (SB.code_lt t w hw.1 hs.1) e
    rw [code_inj t v w hw.1 hr.1 hs.1 this, fields_unique fs vs ws xs hw.2 hr.2 hs.2 h.2 h'.2]

/-- Two functions that a class computes agree on its inputs. -/
theorem computes_unique {B K : Type} {P : Process} {obj : PeakObj B K} {f g : Fn B} (hw : WF obj.outT) (hf : Computes P obj f) (hg : Computes P obj g)
    (r : RVal) (bb : List (B × List BV)) (hr : RHas obj.inT r) : f r bb = g r bb := by
  obtain ⟨ci, fi, co, fo, e1, e2, hf⟩ := hf
  obtain ⟨ci', fi', co', fo', e1', e2', hg⟩ := hg
  rw [e1, Ty.prod.injEq] at e1'
  rw [e2, Ty.prod.injEq] at e2'
  obtain ⟨rfl, rfl⟩ := e1'
  obtain ⟨rfl, rfl⟩ := e2'
  cases r with
  | leaf n => rw [e1] at hr; simp [RHas] at hr
  | sum k v => rw [e1] at hr; simp [RHas] at hr
  | prod vs =>
    obtain ⟨ws, a1, a2, a3, a4⟩ := hf vs bb hr
    obtain ⟨ws', b1, b2, b3, b4⟩ := hg vs bb hr
    rw [e2] at hw a2 b2
    have := fields_unique fo ws ws' _ hw.2 a2 b2 a3 b3
    exact Prod.ext (by rw [a1, b1, this]) (by rw [← a4, ← b4])

/-- C33: the functions in `RuleRight` may be any that the two classes compute: a rule is right exactly if it is correct for these. -/
theorem C33_right {B K : Type} [DecidableEq B] {P : Process} {ir arch : PeakObj B K} {fi fa : Fn B} (hi : WF ir.outT) (ha : WF arch.outT)
    (h1 : Computes P ir fi) (h2 : Computes P arch fa) (rule : RRule) : RuleRight P ir arch rule ↔ RuleCorrect ir arch fi fa rule := by
  refine ⟨?_, fun h => ⟨fi, fa, h1, h2, h⟩⟩
  rintro ⟨gi, ga, g1, g2, h⟩ ri ra hrel F ρi ρa
  rw [computes_unique hi h1 g1 _ _ hrel.ir, computes_unique ha h2 g2 _ _ hrel.arch]
  exact h ri ra hrel F ρi ρa

/-- The rule of Props/Verify.lean is right for `a + 3` and not for `a + 4`. -/
example (P : Process) : RuleRight P (vIr (· + 3)) vArch vRule ∧ ¬ RuleRight P (vIr (· + 4)) vArch vRule := by
  have S := vSetup P (· + 3)
  have S' := vSetup P (· + 4)
  exact ⟨(C33_right S.ir_out.1 S.arch_out.1 S.ir_fn S.arch_fn _).mpr vCorrect.1,
    fun h => vCorrect.2 ((C33_right S'.ir_out.1 S'.arch_out.1 S'.ir_fn S'.arch_fn _).mp h)⟩

end Peak.RR
