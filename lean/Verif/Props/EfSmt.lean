import Verif.Model.EfSmt
import Verif.Lemmas.Bindings
import Mathlib.Data.List.Perm.Subperm
/-!
# C34, C39: exists-forall solving
-/

namespace Peak

/-- An assignment giving every variable a value of its sort. -/
def WellSorted (sort : Nat → Srt) (ρ : Asg) : Prop := ∀ v, ρ v < (sort v).card

/-- The contract of a solver: a model satisfies the assertions, and "no model" means there is none.  It may
choose models in any way, differently at every call. -/
def SolverOk (sort : Nat → Srt) (solve : Nat → List (Asg → Bool) → Option Asg) : Prop :=
  ∀ k asserts,
    (∀ ρ, solve k asserts = some ρ → WellSorted sort ρ ∧ ∀ a ∈ asserts, a ρ = true) ∧
    (solve k asserts = none → ∀ ρ, WellSorted sort ρ → ∃ a ∈ asserts, a ρ = false)

/-- The value of a formula depends on its free variables only. -/
def Phi.Local (phi : Phi) : Prop := ∀ ρ ρ' : Asg, (∀ v ∈ phi.fv, ρ v = ρ' v) → phi.eval ρ = phi.eval ρ'

/-- Specification: the existential part of `ρ` works for every value of the universal variables `y`. -/
def Works (sort : Nat → Srt) (phi : Phi) (y : List Nat) (ρ : Asg) : Prop :=
  ∀ u, WellSorted sort u → phi.eval (fun v => if v ∈ y then u v else ρ v) = true

namespace Ef

theorem lookup_map (l : List Nat) (ρ : Asg) (v : Nat) :
    (l.map (fun v => (v, ρ v))).lookup v = if v ∈ l then some (ρ v) else none := by
  induction l with
  | nil => simp
  | cons a l ih =>
    by_cases h : v = a
    · subst h; simp
    · simp only [List.map_cons, List.lookup, beq_eq_false_iff_ne.mpr h, ih, List.mem_cons, h, false_or]

theorem override_map (l : List Nat) (μ ρ : Asg) : override (l.map (fun v => (v, μ v))) ρ = fun v => if v ∈ l then μ v else ρ v := by
  funext v
  unfold override
  rw [lookup_map]
  split <;> rfl

/-- An assertion of the loop: true, or the formula at some well-sorted value of the universal variables. -/
def Instance (sort : Nat → Srt) (phi : Phi) (y : List Nat) (a : Asg → Bool) : Prop :=
  a = (fun _ => true) ∨ ∃ μ, WellSorted sort μ ∧ a = phi.subst (y.map (fun v => (v, μ v)))

variable {sort : Nat → Srt} {phi : Phi} {y : List Nat}

theorem instance_local (hl : phi.Local) {a : Asg → Bool} (ha : Instance sort phi y a) (ρ ρ' : Asg)
    (h : ∀ v ∈ phi.fv.filter (fun v => v ∉ y), ρ v = ρ' v) : a ρ = a ρ' := by
  rcases ha with rfl | ⟨μ, _, rfl⟩
  · rfl
  · unfold Phi.subst
    rw [override_map, override_map]
    apply hl
    intro v hv
    by_cases hy : v ∈ y
    · simp [hy]
    · simp only [hy, if_false]
      exact h v (by simp [hv, hy])

/-- The domain of the candidates. -/
def dom (sort : Nat → Srt) (x : List Nat) : List (List Nat) := pyProduct (x.map (fun v => List.range (sort v).card))

theorem mem_dom {ρ : Asg} (h : WellSorted sort ρ) (x : List Nat) : x.map ρ ∈ dom sort x := by
  unfold dom
  rw [Bnd.mem_pyProduct, List.forall₂_map_right_iff, List.forall₂_map_left_iff, List.forall₂_same]
  intro v _
  exact List.mem_range.mpr (h v)

theorem length_pyProduct {α : Type} (ls : List (List α)) : (pyProduct ls).length = (ls.map List.length).prod := by
  induction ls with
  | nil => rfl
  | cons l ls ih =>
    simp only [pyProduct, List.length_flatMap, List.length_map, List.map_cons, List.prod_cons, ih]
    generalize (ls.map List.length).prod = n
    clear ih
    induction l with
    | nil => simp
    | cons a l ih => simp [ih, Nat.add_mul, Nat.add_comm]

theorem length_dom (x : List Nat) : (dom sort x).length = (x.map (fun v => (sort v).card)).prod := by
  unfold dom
  rw [length_pyProduct, List.map_map]
  congr 2
  funext v
  simp

/-- The invariant of the loop. -/
theorem loop_spec (hl : phi.Local) {solve : Nat → List (Asg → Bool) → Option Asg} {refute : Nat → (Asg → Bool) → Option Asg}
    (hs : SolverOk sort solve) (hr : SolverOk sort (fun k as => refute k (fun ρ => as.all (fun a => a ρ)))) (m : Option Int)
    (x : List Nat) (hx : x = phi.fv.filter (fun v => v ∉ y)) :
    ∀ (fuel loops : Nat) (asserts : List (Asg → Bool)) (seen : List (List Nat)),
      (∀ a ∈ asserts, Instance sort phi y a) →
      (∀ c ∈ seen, ∀ ρ : Asg, x.map ρ = c → ∃ a ∈ asserts, a ρ = false) →
      seen.Nodup → (∀ c ∈ seen, c ∈ dom sort x) →
      let r := efLoop phi x y m solve refute fuel loops asserts
      (∀ ρ, r.1 = .rule ρ → WellSorted sort ρ ∧ Works sort phi y ρ) ∧
      (r.1 = .unsat → ∀ ρ, WellSorted sort ρ → ¬ Works sort phi y ρ) ∧
      (seen ++ r.2.map (fun ρ => x.map ρ)).Nodup ∧
      (∀ c ∈ r.2.map (fun ρ => x.map ρ), c ∈ dom sort x) ∧
      (∀ ρ ∈ r.2, WellSorted sort ρ ∧ (¬ Works sort phi y ρ ∨ r.1 = .rule ρ)) ∧
      (r.1 = .loopException → ∃ M, m = some M ∧ ((loops + r.2.length : Nat) : Int) > M) ∧
      ((dom sort x).length < fuel + seen.length → (∀ M, m = some M → ((dom sort x).length : Int) + loops ≤ M + seen.length) →
        r.1 = .unsat ∨ ∃ ρ, r.1 = .rule ρ) := by
  intro fuel
  induction fuel with
  | zero =>
    intro loops asserts seen _ _ hnd hsub
    simp only [efLoop]
    refine ⟨by simp, by simp, by simpa using hnd, by simp, by simp, by simp, ?_⟩
    intro h
    have := (List.Nodup.subperm hnd hsub).length_le
    omega
  | succ fuel ih =>
    intro loops asserts seen hinst hseen hnd hsub
    have hle := (List.Nodup.subperm hnd hsub).length_le
    simp only [efLoop]
    split
    · next hm =>
      cases hsv : solve loops asserts with
      | none =>
        refine ⟨by simp, ?_, by simpa using hnd, by simp, by simp, by simp, by simp⟩
        intro _ ρ hρ hw
        obtain ⟨a, ha, hf⟩ := (hs loops asserts).2 hsv ρ hρ
        rcases hinst a ha with rfl | ⟨μ, hμ, rfl⟩
        · cases hf
        · have := hw μ hμ
          unfold Phi.subst at hf
          rw [override_map] at hf
          rw [this] at hf
          cases hf
      | some ρ =>
        obtain ⟨hρ, hsat⟩ := (hs loops asserts).1 ρ hsv
        have hcand : x.map ρ ∉ seen := by
          intro hc
          obtain ⟨a, ha, hf⟩ := hseen _ hc ρ rfl
          rw [hsat a ha] at hf
          cases hf
        have hnd' : (seen ++ [x.map ρ]).Nodup := by
          rw [List.nodup_append]
          refine ⟨hnd, by simp, ?_⟩
          intro a ha b hb
          simp only [List.mem_singleton] at hb
          subst hb
          rintro rfl
          exact hcand ha
        have hext : ∀ u, WellSorted sort u →
            phi.subst (x.map (fun v => (v, ρ v))) u = phi.eval (fun v => if v ∈ y then u v else ρ v) := by
          intro u _
          unfold Phi.subst
          rw [override_map]
          apply hl
          intro v hv
          by_cases hy : v ∈ y
          · simp [hx, hy]
          · have : v ∈ x := by rw [hx]; simp [hv, hy]
            simp [this, hy]
        simp only []
        have hr' := hr loops [fun ρ' => !(phi.subst (x.map (fun v => (v, ρ v))) ρ')]
        simp only [List.all_cons, List.all_nil, Bool.and_true] at hr'
        cases hrf : refute loops (fun ρ' => !(phi.subst (x.map (fun v => (v, ρ v))) ρ')) with
        | none =>
          rw [hrf] at hr'
          have hw : Works sort phi y ρ := by
            intro u hu
            obtain ⟨a, ha, hf⟩ := hr'.2 rfl u hu
            simp only [List.mem_singleton] at ha
            subst ha
            rw [← hext u hu]
            simpa using hf
          refine ⟨?_, by simp, by simpa using hnd', ?_, ?_, by simp, fun _ _ => .inr ⟨ρ, rfl⟩⟩
          · intro ρ' h; cases h; exact ⟨hρ, hw⟩
          · intro c hc; simp at hc; rw [hc]; exact mem_dom hρ x
          · intro ρ' h; simp at h; subst h; exact ⟨hρ, .inr rfl⟩
        | some μ =>
          rw [hrf] at hr'
          obtain ⟨hμ, hfalse⟩ := hr'.1 μ rfl
          have hfalse : phi.eval (fun v => if v ∈ y then μ v else ρ v) = false := by
            have := hfalse _ (List.mem_singleton.mpr rfl)
            rw [← hext μ hμ]
            simpa using this
          have hnw : ¬ Works sort phi y ρ := fun hw => by rw [hw μ hμ] at hfalse; cases hfalse
          have hinst' : ∀ a ∈ asserts ++ [phi.subst (y.map (fun v => (v, μ v)))], Instance sort phi y a := by
            intro a ha
            rcases List.mem_append.mp ha with ha | ha
            · exact hinst a ha
            · simp at ha; subst ha; exact .inr ⟨μ, hμ, rfl⟩
          have hseen' : ∀ c ∈ seen ++ [x.map ρ], ∀ ρ' : Asg, x.map ρ' = c →
              ∃ a ∈ asserts ++ [phi.subst (y.map (fun v => (v, μ v)))], a ρ' = false := by
            intro c hc ρ' hρ'
            rcases List.mem_append.mp hc with hc | hc
            · obtain ⟨a, ha, hf⟩ := hseen c hc ρ' hρ'
              exact ⟨a, List.mem_append_left _ ha, hf⟩
            · simp at hc
              refine ⟨_, List.mem_append_right _ (List.mem_singleton.mpr rfl), ?_⟩
              have hagree : ∀ v ∈ phi.fv.filter (fun v => v ∉ y), ρ' v = ρ v := by
                intro v hv
                rw [← hx] at hv
                exact List.map_inj_left.mp (hρ'.trans hc) v hv
              rw [instance_local hl (.inr ⟨μ, hμ, rfl⟩) ρ' ρ hagree]
              unfold Phi.subst
              rw [override_map]
              exact hfalse
          have hsub' : ∀ c ∈ seen ++ [x.map ρ], c ∈ dom sort x := by
            intro c hc
            rcases List.mem_append.mp hc with hc | hc
            · exact hsub c hc
            · simp at hc; rw [hc]; exact mem_dom hρ x
          obtain ⟨i1, i2, i3, i4, i5, i6, i7⟩ := ih (loops + 1) _ _ hinst' hseen' hnd' hsub'
          simp only []
          generalize hgen : efLoop phi x y m solve refute fuel (loops + 1) (asserts ++ [phi.subst (y.map (fun v => (v, μ v)))]) = r
          rw [hgen] at i1 i2 i3 i4 i5 i6 i7
          refine ⟨i1, i2, by simpa using i3, ?_, ?_, ?_, ?_⟩
          · intro c hc
            simp only [List.map_cons, List.mem_cons] at hc
            rcases hc with rfl | hc
            · exact mem_dom hρ x
            · exact i4 c hc
          · intro ρ' h
            rcases List.mem_cons.mp h with rfl | h
            · exact ⟨hρ, .inl hnw⟩
            · exact i5 ρ' h
          · intro h
            obtain ⟨M, h1, h2⟩ := i6 h
            refine ⟨M, h1, ?_⟩
            simp only [List.length_cons]
            omega
          · intro h1 h2
            refine i7 (by simp; omega) ?_
            intro M hM
            have := h2 M hM
            simp; omega
    · next hm =>
      refine ⟨by simp, by simp, by simpa using hnd, by simp, by simp, ?_, ?_⟩
      · intro _
        cases m with
        | none => simp at hm
        | some M =>
          refine ⟨M, rfl, ?_⟩
          simp at hm
          simpa using hm
      · intro _ h
        exfalso
        cases m with
        | none => simp at hm
        | some M =>
          simp at hm
          have := h M rfl
          omega

end Ef

theorem C34_int_well_sorted (x : Int) (s : Srt) (h : s ≠ .bv 0) : intToPysmt x s < s.card := by
  cases s with
  | bv w =>
    have hw : w ≠ 0 := fun h' => h (by rw [h'])
    simp only [intToPysmt, Srt.card]
    have h1 := Int.emod_lt_of_pos x (show (0 : Int) < w by omega)
    have h2 := Int.emod_nonneg x (show (w : Int) ≠ 0 by omega)
    have : w < 2 ^ w := Nat.lt_two_pow_self
    omega
  | bool => simp only [intToPysmt, Srt.card]; split <;> omega

namespace Ef

theorem initial_instances {sort : Nat → Srt} (hsort : ∀ v, sort v ≠ .bv 0) (phi : Phi) (y : List Nat) (n : Int) (rand : Nat → Nat → Nat) :
    ∀ a ∈ (fun _ => true) :: (genInitial sort y n rand).map phi.subst, Instance sort phi y a := by
  intro a ha
  rcases List.mem_cons.mp ha with rfl | ha
  · exact .inl rfl
  · right
    obtain ⟨σ, hσ, rfl⟩ := List.mem_map.mp ha
    have key : ∀ f : Nat → Int, ∃ μ, WellSorted sort μ ∧
        phi.subst (y.map (fun v => (v, intToPysmt (f v) (sort v)))) = phi.subst (y.map (fun v => (v, μ v))) :=
      fun f => ⟨fun v => intToPysmt (f v) (sort v), fun v => C34_int_well_sorted _ _ (hsort v), rfl⟩
    unfold genInitial at hσ
    split at hσ
    · simp at hσ
    · rcases List.mem_append.mp hσ with h | h
      · simp only [List.mem_cons, List.not_mem_nil, or_false] at h
        rcases h with rfl | rfl | rfl
        · exact key (fun _ => 0)
        · exact key (fun _ => 1)
        · exact key (fun _ => -1)
      · obtain ⟨i, _, rfl⟩ := List.mem_map.mp h
        exact key (fun v => rand i v)

end Ef

section
variable {sort : Nat → Srt} {phi : Phi} {y : List Nat} {m : Option Int} {n : Int} {rand : Nat → Nat → Nat}
  {solve : Nat → List (Asg → Bool) → Option Asg} {refute : Nat → (Asg → Bool) → Option Asg}

/-- The contract for `smt.get_model` of a single formula. -/
def RefuterOk (sort : Nat → Srt) (refute : Nat → (Asg → Bool) → Option Asg) : Prop :=
  ∀ k a, (∀ ρ, refute k a = some ρ → WellSorted sort ρ ∧ a ρ = true) ∧ (refute k a = none → ∀ ρ, WellSorted sort ρ → a ρ = false)

theorem Ef.refuter (h : RefuterOk sort refute) : SolverOk sort (fun k as => refute k (fun ρ => as.all (fun a => a ρ))) := by
  intro k as
  refine ⟨fun ρ hρ => ?_, fun hn ρ hρ => ?_⟩
  · obtain ⟨h1, h2⟩ := (h k _).1 ρ hρ
    exact ⟨h1, by simpa using h2⟩
  · have := (h k _).2 hn ρ hρ
    simpa using this

/-- C34, soundness: whatever models the solver chooses, whatever the seeds and the loop bound, a rule is returned only from a model whose
existential part satisfies the formula for all values of the universal variables, and `None` is returned only when no choice of the
existential variables does. -/
theorem C34_sound (hsort : ∀ v, sort v ≠ .bv 0) (hl : phi.Local) (hs : SolverOk sort solve) (hr : RefuterOk sort refute) (fuel : Nat) :
    (∀ ρ, (externalLoopSolve sort phi y m n rand solve refute fuel).1 = .rule ρ → WellSorted sort ρ ∧ Works sort phi y ρ) ∧
    ((externalLoopSolve sort phi y m n rand solve refute fuel).1 = .unsat → ∀ ρ, WellSorted sort ρ → ¬ Works sort phi y ρ) := by
  have := Ef.loop_spec hl hs (Ef.refuter hr) m _ rfl fuel 0 _ [] (Ef.initial_instances hsort phi y n rand) (by simp) (by simp) (by simp)
  exact ⟨this.1, this.2.1⟩

/-- C34, progress: no two candidates seen agree on all existential variables, and every candidate other than a returned one fails
for some value of the universal variables. -/
theorem C34_progress (hsort : ∀ v, sort v ≠ .bv 0) (hl : phi.Local) (hs : SolverOk sort solve) (hr : RefuterOk sort refute) (fuel : Nat) :
    ((externalLoopSolve sort phi y m n rand solve refute fuel).2.map
      (fun ρ => (phi.fv.filter (fun v => v ∉ y)).map ρ)).Nodup ∧
    ∀ ρ ∈ (externalLoopSolve sort phi y m n rand solve refute fuel).2,
      ¬ Works sort phi y ρ ∨ (externalLoopSolve sort phi y m n rand solve refute fuel).1 = .rule ρ := by
  have := Ef.loop_spec hl hs (Ef.refuter hr) m _ rfl fuel 0 _ [] (Ef.initial_instances hsort phi y n rand) (by simp) (by simp) (by simp)
  exact ⟨this.2.2.1, fun ρ hρ => (this.2.2.2.2.1 ρ hρ).2⟩

/-- C34, the loop bound: `LoopException` is raised only with a bound `M`, after more than `M` failed candidates. -/
theorem C34_exhausted (hsort : ∀ v, sort v ≠ .bv 0) (hl : phi.Local) (hs : SolverOk sort solve) (hr : RefuterOk sort refute) (fuel : Nat)
    (h : (externalLoopSolve sort phi y m n rand solve refute fuel).1 = .loopException) :
    ∃ M, m = some M ∧ ((externalLoopSolve sort phi y m n rand solve refute fuel).2.length : Int) > M := by
  have := Ef.loop_spec hl hs (Ef.refuter hr) m _ rfl fuel 0 _ [] (Ef.initial_instances hsort phi y n rand) (by simp) (by simp) (by simp)
  obtain ⟨M, h1, h2⟩ := this.2.2.2.2.2.1 h
  refine ⟨M, h1, ?_⟩
  rw [Nat.zero_add] at h2
  exact h2

/-- C34, termination: let `N` be the number of values of the existential variables.  Without a loop bound, or with one of at least `N`,
the loop decides (returns a rule or `None`) within `N + 1` iterations. -/
theorem C34_decides (hsort : ∀ v, sort v ≠ .bv 0) (hl : phi.Local) (hs : SolverOk sort solve) (hr : RefuterOk sort refute) (fuel : Nat)
    (hf : ((phi.fv.filter (fun v => v ∉ y)).map (fun v => (sort v).card)).prod < fuel)
    (hm : ∀ M, m = some M → (((phi.fv.filter (fun v => v ∉ y)).map (fun v => (sort v).card)).prod : Int) ≤ M) :
    (externalLoopSolve sort phi y m n rand solve refute fuel).1 = .unsat ∨
    ∃ ρ, (externalLoopSolve sort phi y m n rand solve refute fuel).1 = .rule ρ := by
  have := Ef.loop_spec hl hs (Ef.refuter hr) m _ rfl fuel 0 _ [] (Ef.initial_instances hsort phi y n rand) (by simp) (by simp) (by simp)
  refine this.2.2.2.2.2.2 ?_ ?_
  · rw [Ef.length_dom]; simpa using hf
  · intro M hM
    rw [Ef.length_dom]
    simpa using hm M hM

end

/-- Some solver meeting the contract. -/
noncomputable def someSolver (sort : Nat → Srt) : Nat → List (Asg → Bool) → Option Asg := fun _ asserts =>
  open Classical in
  if h : ∃ ρ, WellSorted sort ρ ∧ ∀ a ∈ asserts, a ρ = true then some h.choose else none

theorem Ef.someSolver_ok (sort : Nat → Srt) : SolverOk sort (someSolver sort) := by
  intro k asserts
  unfold someSolver
  refine ⟨fun ρ h => ?_, fun h ρ hρ => ?_⟩
  · split at h
    · next hh => cases h; exact hh.choose_spec
    · cases h
  · split at h
    · cases h
    · next hh =>
      apply Classical.byContradiction
      intro hn
      refine hh ⟨ρ, hρ, fun a ha => ?_⟩
      cases hb : a ρ with
      | true => rfl
      | false => exact absurd ⟨a, ha, hb⟩ hn

/-- The hypotheses of the theorems are met: for `x = 1 or y = 1` over Booleans, with the initial vectors and a bound of 2, the loop returns a rule
with `x = 1`. -/
example : ∃ ρ, (externalLoopSolve (fun _ => .bool) ⟨[0, 1], fun ρ => ρ 0 == 1 || ρ 1 == 1⟩ [1] (some 2) 5 (fun i v => i * 7 + v)
      (someSolver (fun _ => .bool)) (fun k a => someSolver (fun _ => .bool) k [a]) 3).1 = .rule ρ ∧ ρ 0 = 1 := by
  have hl : Phi.Local ⟨[0, 1], fun ρ => ρ 0 == 1 || ρ 1 == 1⟩ := by
    intro ρ ρ' h
    simp only [h 0 (by simp), h 1 (by simp)]
  have hr : RefuterOk (fun _ => .bool) (fun k a => someSolver (fun _ => .bool) k [a]) := by
    intro k a
    have := Ef.someSolver_ok (fun _ => .bool) k [a]
    simpa using this
  have hsnd := C34_sound (m := some 2) (n := 5) (rand := fun i v => i * 7 + v) (y := [1]) (by simp) hl (Ef.someSolver_ok _) hr 3
  rcases C34_decides (m := some 2) (n := 5) (rand := fun i v => i * 7 + v) (y := [1]) (by simp) hl (Ef.someSolver_ok _) hr 3
    (by simp [Srt.card]) (by simp [Srt.card]) with h | ⟨ρ, h⟩
  · exact absurd (fun u _ => by simp) (hsnd.2 h (fun _ => 1) (fun _ => by simp [Srt.card]))
  · refine ⟨ρ, h, ?_⟩
    have := (hsnd.1 ρ h).2 (fun _ => 0) (fun _ => by simp [Srt.card])
    simpa using this

/-- C39 as stated fails: for every width, the integer -1 is passed to the solver as a different number. -/
theorem C39_violated (w : Nat) (hw : 1 ≤ w) : (intToPysmt (-1) (.bv w) : Int) ≠ (-1) % 2 ^ w := by
  have h2 : w < 2 ^ w := Nat.lt_two_pow_self
  simp only [intToPysmt]
  have h1 : (-1 : Int) % w = w - 1 := by
    have : (-1 : Int) % w = (-1 + w) % w := by simp
    rw [this, Int.emod_eq_of_lt (by omega) (by omega)]
    omega
  have h3 : (-1 : Int) % 2 ^ w = 2 ^ w - 1 := by
    have hp : (0 : Int) < 2 ^ w := by
      have : (0 : Nat) < 2 ^ w := by omega
      exact_mod_cast this
    have : (-1 : Int) % 2 ^ w = (-1 + 2 ^ w) % 2 ^ w := by simp
    rw [this, Int.emod_eq_of_lt (by omega) (by omega)]
    omega
  rw [h1, h3]
  have : ((2 ^ w : Nat) : Int) = 2 ^ w := by simp
  omega

/-- C39, what holds: Booleans are converted by truth value; a bit-vector constant denotes the integer modulo `2**width` for the integers
from 0 up to (not including) the width, and it is always a legal constant of the sort. -/
theorem C39_partial (x : Int) (w : Nat) (hw : 1 ≤ w) :
    (intToPysmt x .bool = 1 ↔ x ≠ 0) ∧ (intToPysmt x .bool = 0 ↔ x = 0) ∧
    intToPysmt x (.bv w) < 2 ^ w ∧
    (0 ≤ x → x < w → (intToPysmt x (.bv w) : Int) = x % 2 ^ w) := by
  refine ⟨by simp [intToPysmt], by simp [intToPysmt], C34_int_well_sorted x (.bv w) (by simp; omega), ?_⟩
  intro h0 h1
  simp only [intToPysmt]
  rw [Int.emod_eq_of_lt h0 h1]
  have h2 : w < 2 ^ w := Nat.lt_two_pow_self
  have : ((2 ^ w : Nat) : Int) = 2 ^ w := by simp
  rw [Int.emod_eq_of_lt h0 (by omega)]
  omega

end Peak
