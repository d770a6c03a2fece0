import Verif.Props.EfSmt
/-!
# C87: the initial vectors of `external_loop_solve`
-/

namespace Peak
namespace Ef

/-- Every candidate satisfies what was asserted at the start. -/
theorem cands_asserts {sort : Nat → Srt} {phi : Phi} {x y : List Nat} {m : Option Int} {solve : Nat → List (Asg → Bool) → Option Asg}
    {refute : Nat → (Asg → Bool) → Option Asg} (hs : SolverOk sort solve) : ∀ (fuel loops : Nat) (asserts : List (Asg → Bool)),
    ∀ ρ ∈ (efLoop phi x y m solve refute fuel loops asserts).2, ∀ a ∈ asserts, a ρ = true := by
  intro fuel
  induction fuel with
  | zero => intro loops asserts ρ h; simp [efLoop] at h
  | succ fuel ih =>
    intro loops asserts ρ h a ha
    simp only [efLoop] at h
    split at h
    · cases hsol : solve loops asserts with
      | none => rw [hsol] at h; simp at h
      | some ρ0 =>
        have h0 := ((hs loops asserts).1 ρ0 hsol).2 a ha
        rw [hsol] at h
        simp only at h
        split at h
        · simp only [List.mem_singleton] at h; exact h ▸ h0
        · rcases List.mem_cons.mp h with h | h
          · exact h ▸ h0
          · exact ih _ _ ρ h a (List.mem_append_left _ ha)
    · simp at h

end Ef

/-- The value of the integer `c` in a sort, as SMT-LIB has it: modulo the number of elements for a vector, truth for a Boolean. -/
def sortInt (c : Int) : Srt → Nat
  | .bv w => (c % 2 ^ w).toNat
  | .bool => if c = 0 then 0 else 1

section
variable {sort : Nat → Srt} {phi : Phi} {y : List Nat} {m : Option Int} {n : Int} {rand : Nat → Nat → Nat}
  {solve : Nat → List (Asg → Bool) → Option Asg} {refute : Nat → (Asg → Bool) → Option Asg}

/-- C87, what holds: a candidate that fails when all universal variables are 0 is never tried; nor is one that fails when they are all 1, unless one of them
is a vector of one bit; nor one that fails when they are all -1, if they are Booleans.  The `n` random vectors are used in the same way. -/
theorem C87_initial_partial (hs : SolverOk sort solve) (hn : 0 ≤ n) (fuel : Nat) :
    ∀ ρ ∈ (externalLoopSolve sort phi y m n rand solve refute fuel).2,
      ((∀ v ∈ y, sort v ≠ .bv 0) → phi.eval (fun v => if v ∈ y then sortInt 0 (sort v) else ρ v) = true) ∧
      ((∀ v ∈ y, sort v ≠ .bv 0 ∧ sort v ≠ .bv 1) → phi.eval (fun v => if v ∈ y then sortInt 1 (sort v) else ρ v) = true) ∧
      ((∀ v ∈ y, sort v = .bool) → phi.eval (fun v => if v ∈ y then sortInt (-1) (sort v) else ρ v) = true) ∧
      ∀ i : Nat, (i : Int) < n → phi.eval (fun v => if v ∈ y then intToPysmt (rand i v) (sort v) else ρ v) = true := by
  intro ρ hρ
  have key : ∀ f : Nat → Int, y.map (fun v => (v, intToPysmt (f v) (sort v))) ∈ genInitial sort y n rand →
      phi.eval (fun v => if v ∈ y then intToPysmt (f v) (sort v) else ρ v) = true := by
    intro f hf
    have := Ef.cands_asserts (phi := phi) (x := phi.fv.filter (fun v => v ∉ y)) (y := y) (m := m) (refute := refute) hs fuel 0 _ ρ hρ
      (phi.subst (y.map (fun v => (v, intToPysmt (f v) (sort v))))) (List.mem_cons_of_mem _ (List.mem_map_of_mem hf))
    rw [← this, Phi.subst]
    congr 1
    funext v
    have hl := Ef.lookup_map y (fun v => intToPysmt (f v) (sort v)) v
    simp only [override, hl]
    split <;> rfl
  have conv : ∀ c : Int, (∀ v ∈ y, intToPysmt c (sort v) = sortInt c (sort v)) →
      y.map (fun v => (v, intToPysmt c (sort v))) ∈ genInitial sort y n rand →
      phi.eval (fun v => if v ∈ y then sortInt c (sort v) else ρ v) = true := by
    intro c hc hm
    rw [← key (fun _ => c) hm]
    congr 1
    funext v
    split
    · next hv => exact (hc v hv).symm
    · rfl
  have hneg : ¬ n < 0 := by omega
  refine ⟨fun hw => conv 0 ?_ ?_, fun hw => conv 1 ?_ ?_, fun hb => conv (-1) ?_ ?_, fun i hi => key (fun v => rand i v) ?_⟩
  · intro v hv
    cases sort v <;> simp [intToPysmt, sortInt]
  · simp [genInitial, hneg]
  · intro v hv
    have := hw v hv
    cases hv' : sort v with
    | bool => simp [intToPysmt, sortInt]
    | bv w =>
      rw [hv'] at this
      have hw2 : 2 ≤ w := by
        have h0 : w ≠ 0 := fun h => this.1 (by rw [h])
        have h1 : w ≠ 1 := fun h => this.2 (by rw [h])
        omega
      have h2 : w < 2 ^ w := Nat.lt_two_pow_self
      have hc : ((2 ^ w : Nat) : Int) = 2 ^ w := by simp
      simp only [intToPysmt, sortInt]
      rw [Int.emod_eq_of_lt (by omega) (by omega), Int.emod_eq_of_lt (by omega) (by omega)]
  · simp [genInitial, hneg]
  · intro v hv
    simp [hb v hv, intToPysmt, sortInt]
  · simp [genInitial, hneg]
  · rw [genInitial, if_neg hneg]
    exact List.mem_append_right _ (List.mem_map.mpr ⟨i, List.mem_range.mpr (by omega), rfl⟩)

/-- With a negative number there are no vectors: the first candidate is whatever model of nothing at all the solver gives. -/
theorem C87_none (hn : n < 0) (hm : ∀ M, m = some M → 0 ≤ M) (fuel : Nat) :
    (externalLoopSolve sort phi y m n rand solve refute (fuel + 1)).2.head? = solve 0 [fun _ => true] := by
  have hm' : (m.all fun M => decide (((0 : Nat) : Int) ≤ M)) = true := by
    cases m with
    | none => rfl
    | some M => simpa using hm M rfl
  simp only [externalLoopSolve, genInitial, if_pos hn, List.map_nil, efLoop, hm', if_true]
  cases solve 0 [fun _ => true] with
  | none => rfl
  | some ρ =>
    simp only
    split <;> rfl

/-- The random vectors are not any vectors: a vector of `w` bits is given a number below `w`. -/
theorem C87_violated_random (w : Nat) (hw : 2 ≤ w) : ∃ u, u < 2 ^ w ∧ ∀ r : Nat, intToPysmt r (.bv w) ≠ u := by
  refine ⟨w, Nat.lt_two_pow_self, fun r h => ?_⟩
  simp only [intToPysmt] at h
  have := Int.emod_lt_of_pos r (show (0 : Int) < w by omega)
  omega

end

/-- The code violates C87: with any number of initial vectors a candidate that fails when the universal variable, a byte, is -1 is tried. -/
theorem C87_violated_minus_one (n : Int) (rand : Nat → Nat → Nat) : ∃ (sort : Nat → Srt) (phi : Phi) (y : List Nat)
    (solve : Nat → List (Asg → Bool) → Option Asg) (refute : Nat → (Asg → Bool) → Option Asg), phi.Local ∧ SolverOk sort solve ∧ RefuterOk sort refute ∧
    ∃ ρ ∈ (externalLoopSolve sort phi y (some 10) n rand solve refute 1).2, phi.eval (fun v => if v ∈ y then sortInt (-1) (sort v) else ρ v) = false := by
  classical
  -- `x or y < 255`
  let sort : Nat → Srt := fun v => if v = 0 then .bool else .bv 8
  let phi : Phi := ⟨[0, 1], fun ρ => ρ 0 == 1 || decide (ρ 1 < 255)⟩
  let solve : Nat → List (Asg → Bool) → Option Asg := fun k as => if as.all (fun a => a (fun _ => 0)) then some (fun _ => 0) else someSolver sort k as
  have hs : SolverOk sort solve := by
    intro k as
    by_cases h : as.all (fun a => a (fun _ => 0)) = true
    · simp only [solve, h, if_true]
      refine ⟨fun ρ hρ => ?_, fun hc => by cases hc⟩
      cases hρ
      refine ⟨fun v => ?_, fun a ha => List.all_eq_true.mp h a ha⟩
      simp only [sort]
      split <;> simp [Srt.card]
    · simp only [solve, if_neg h]
      exact Ef.someSolver_ok sort k as
  have hr : RefuterOk sort (fun k a => someSolver sort k [a]) := by
    intro k a
    have := Ef.someSolver_ok sort k [a]
    simpa using this
  refine ⟨sort, phi, [1], solve, fun k a => someSolver sort k [a], ?_, hs, hr, fun _ => 0, ?_, ?_⟩
  · intro ρ ρ' h
    simp only [phi, h 0 (by simp [phi]), h 1 (by simp [phi])]
  · have hall : ((fun _ => true) :: (genInitial sort [1] n rand).map phi.subst).all (fun a => a (fun _ => 0)) = true := by
      rw [List.all_eq_true]
      intro a ha
      rcases List.mem_cons.mp ha with rfl | ha
      · rfl
      · obtain ⟨σ, hσ, rfl⟩ := List.mem_map.mp ha
        have hlt : ∀ c : Int, intToPysmt c (.bv 8) < 8 := by
          intro c
          simp only [intToPysmt]
          have := Int.emod_lt_of_pos c (show (0 : Int) < (8 : Nat) by omega)
          have := Int.emod_nonneg c (show ((8 : Nat) : Int) ≠ 0 by omega)
          omega
        have key : ∀ c : Int, phi.subst [(1, intToPysmt c (.bv 8))] (fun _ => 0) = true := by
          intro c
          have := hlt c
          simp only [Phi.subst, phi, override, List.lookup]
          simp
          omega
        unfold genInitial at hσ
        split at hσ
        · simp at hσ
        · rcases List.mem_append.mp hσ with h | h
          · simp only [List.mem_cons, List.not_mem_nil, or_false, List.map_cons, List.map_nil] at h
            rcases h with rfl | rfl | rfl <;> exact key _
          · obtain ⟨i, _, rfl⟩ := List.mem_map.mp h
            exact key _
    have hsol : solve 0 ((fun _ => true) :: (genInitial sort [1] n rand).map phi.subst) = some (fun _ => 0) := by
      simp only [solve, hall, if_true]
    simp only [externalLoopSolve, efLoop, Option.all_some, hsol]
    simp only [show (decide (((0 : Nat) : Int) ≤ 10)) = true from by decide, if_true]
    split <;> simp
  · simp [phi, sort, sortInt]

/-- The hypotheses of `C87_initial_partial` are met, with a candidate: `x = 1 or y = 1` over Booleans. -/
example : ∃ ρ ∈ (externalLoopSolve (fun _ => .bool) ⟨[0, 1], fun ρ => ρ 0 == 1 || ρ 1 == 1⟩ [1] (some 2) 5 (fun i v => i * 7 + v)
      (someSolver (fun _ => .bool)) (fun k a => someSolver (fun _ => .bool) k [a]) 3).2, ρ 0 = 1 := by
  obtain ⟨ρ, hρ⟩ : ∃ ρ, someSolver (fun _ => Srt.bool) 0 ((fun _ => true) :: (genInitial (fun _ => .bool) [1] 5 (fun i v => i * 7 + v)).map
      (Phi.subst ⟨[0, 1], fun ρ => ρ 0 == 1 || ρ 1 == 1⟩)) = some ρ := by
    cases h : someSolver (fun _ => Srt.bool) 0 ((fun _ => true) :: (genInitial (fun _ => .bool) [1] 5 (fun i v => i * 7 + v)).map
      (Phi.subst ⟨[0, 1], fun ρ => ρ 0 == 1 || ρ 1 == 1⟩)) with
    | some ρ => exact ⟨ρ, rfl⟩
    | none =>
      obtain ⟨a, ha, hf⟩ := (Ef.someSolver_ok (fun _ => Srt.bool) 0 _).2 h (fun _ => 1) (fun _ => by simp [Srt.card])
      rcases List.mem_cons.mp ha with rfl | ha
      · cases hf
      · obtain ⟨σ, hσ, rfl⟩ := List.mem_map.mp ha
        unfold genInitial at hσ
        rw [if_neg (by omega)] at hσ
        rcases List.mem_append.mp hσ with h | h
        · simp only [List.mem_cons, List.not_mem_nil, or_false, List.map_cons, List.map_nil] at h
          rcases h with rfl | rfl | rfl <;> simp [Phi.subst, override, List.lookup] at hf
        · obtain ⟨i, _, rfl⟩ := List.mem_map.mp h
          simp [Phi.subst, override] at hf
  have hmem : ρ ∈ (externalLoopSolve (fun _ => .bool) ⟨[0, 1], fun ρ => ρ 0 == 1 || ρ 1 == 1⟩ [1] (some 2) 5 (fun i v => i * 7 + v)
      (someSolver (fun _ => .bool)) (fun k a => someSolver (fun _ => .bool) k [a]) 3).2 := by
    simp only [externalLoopSolve, efLoop, Option.all_some, hρ]
    simp only [show (decide (((0 : Nat) : Int) ≤ 2)) = true from by decide, if_true]
    split <;> simp
  refine ⟨ρ, hmem, ?_⟩
  have := (C87_initial_partial (Ef.someSolver_ok _) (by omega) 3 ρ hmem).1 (by simp)
  simpa [sortInt] using this

end Peak
