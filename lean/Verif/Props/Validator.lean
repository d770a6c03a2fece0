import Verif.Lemmas.Validator3
/-!
# C11, C12: generated validators (`_gen_is_valid`)
-/

namespace Peak
open Peak.Spec

/-- The cache after a history of validator requests (opcodes, width), starting from an empty process. -/
def afterRequests (reqs : List (List Nat × Nat)) : VCache :=
  reqs.foldl (fun c r => (genIsValid r.1 r.2 c).2) []

/-- The predicate a caller gets for `(ops, w)` after a history of requests; `none` if the request raises. -/
def validatorAfter (reqs : List (List Nat × Nat)) (ops : List Nat) (w : Nat) : Option Validator :=
  (genIsValid ops w (afterRequests reqs)).1.toOption

/-! ## helper: invariant of histories -/

theorem afterRequests_inv (reqs : List (List Nat × Nat)) :
    CInv (fun o w' => ∃ r ∈ reqs, r.2 = w' ∧ (sortNat r.1 = o ∨ IsRun o)) (afterRequests reqs) ∧
      ∀ e ∈ afterRequests reqs, e.1 ≠ [] := by
  suffices H : ∀ (pre reqs : List (List Nat × Nat)) (c : VCache),
      CInv (fun o w' => ∃ r ∈ pre ++ reqs, r.2 = w' ∧ (sortNat r.1 = o ∨ IsRun o)) c →
      (∀ e ∈ c, e.1 ≠ []) →
      CInv (fun o w' => ∃ r ∈ pre ++ reqs, r.2 = w' ∧ (sortNat r.1 = o ∨ IsRun o))
        (reqs.foldl (fun c r => (genIsValid r.1 r.2 c).2) c) ∧
      (∀ e ∈ reqs.foldl (fun c r => (genIsValid r.1 r.2 c).2) c, e.1 ≠ []) by
    exact H [] reqs [] (by intro e he; simp at he) (by simp)
  intro pre reqs
  induction reqs generalizing pre with
  | nil => intro c h h2; exact ⟨by simpa using h, h2⟩
  | cons r reqs ih =>
    intro c h h2
    have key := ih (pre ++ [r]) (genIsValid r.1 r.2 c).2
    simp only [List.append_assoc, List.singleton_append] at key
    refine key ?_ ?_
    · by_cases hr : r.1 = []
      · rw [hr, genIsValid_nil]
        · exact h
        · exact lookup_eq_none_of h2
      · obtain ⟨v, c', h3, h4, _⟩ := genIsValid_inv h (ops := r.1) (w := r.2) hr
          ⟨r, by simp, rfl, Or.inl rfl⟩ (fun x hx _ => ⟨r, by simp, rfl, Or.inr hx⟩)
        rw [h3]; exact h4
    · by_cases hr : r.1 = []
      · rw [hr, genIsValid_nil]
        · exact h2
        · exact lookup_eq_none_of h2
      · cases hl : c.lookup (sortNat r.1) with
        | some v => rw [genIsValid_hit hl]; exact h2
        | none =>
          obtain ⟨new, h3, h4⟩ := genIsValid_miss r.2 hr hl
          rw [h3]
          intro e he
          rcases List.mem_append.1 he with he | he
          · exact h2 e he
          · rcases (h4 e he).1 with h5 | h5
            · obtain ⟨a, n, h6⟩ := h5.1; rw [h6]; simp
            · rw [h5]; intro hh
              have := sortNat_length r.1; rw [hh] at this
              exact hr (List.length_eq_zero_iff.1 this.symm)

/-! ## C11: a validator accepts exactly its opcodes -/

/-- C11, partial: in a fresh process, the generated predicate accepts exactly the given codes, for every set of distinct codes that
fits the width, except the sets handled by the "several ranges" strategy.
Missing: sets in `SeveralRanges`, for which the property is false (`C11_several_ranges_accept_all`). -/
theorem C11_validator_exact_partial (ops : List Nat) (w : Nat) (hne : ops ≠ []) (hnd : ops.Nodup)
    (hfit : ∀ x ∈ ops, x < 2 ^ w) (hs : ¬ SeveralRanges ops) :
    ∃ v, validatorAfter [] ops w = some v ∧ ∀ b : BV, b.size = w → (v b = true ↔ b.val ∈ ops) := by
  obtain ⟨new, h1, _⟩ := genIsValid_miss w (c := []) hne rfl
  refine ⟨pureV (sortNat ops) w, ?_, ?_⟩
  · simp [validatorAfter, afterRequests, h1, Except.toOption]
  · intro b hb
    rw [pureV_exact (w := w) _ _ _ b hb, mem_sortNat]
    · intro h; have := sortNat_length ops; rw [h] at this
      exact hne (List.length_eq_zero_iff.1 this.symm)
    · intro x hx; exact hfit x (mem_sortNat.1 hx)
    · unfold isMultiB
      rw [numRanges_sort hne hnd, sortNat_length]
      by_cases a1 : ops.length < 3
      · simp [a1]
      by_cases a2 : isRangeB (sortNat ops) = true
      · simp [a2]
      by_cases a3 : isOneHotB (sortNat ops) = true
      · simp [a3]
      by_cases a4 : 11 * runCount ops < 10 * ops.length
      · exfalso
        apply hs
        refine ⟨by omega, ?_, ?_, a4⟩
        · intro h; exact a2 (isRangeB_of_one_run hne hnd h)
        · intro h; exact a3 (isOneHotB_sort h)
      · simp [a4]

/-- The hypotheses of C11 are met by, e.g., a sparse one-hot set of codes. -/
example : ([0, 1, 2, 8] : List Nat).Nodup ∧ (∀ x ∈ [0, 1, 2, 8], x < 2 ^ 4) ∧ ¬ SeveralRanges [0, 1, 2, 8] := by
  refine ⟨by decide, by decide, ?_⟩
  intro h
  exact h.2.2.1 (by
    intro x hx
    simp only [List.mem_cons, List.not_mem_nil, or_false] at hx
    rcases hx with rfl | rfl | rfl | rfl
    · exact Or.inl rfl
    · exact Or.inr ⟨0, rfl⟩
    · exact Or.inr ⟨1, rfl⟩
    · exact Or.inr ⟨3, rfl⟩)

theorem isMultiB_several {ops : List Nat} (hnd : ops.Nodup) (hs : SeveralRanges ops) : isMultiB (sortNat ops) = true := by
  have hne : ops ≠ [] := by intro h; have := hs.1; rw [h] at this; simp at this
  unfold isMultiB
  rw [numRanges_sort hne hnd, sortNat_length]
  have a1 : ¬ ops.length < 3 := by have := hs.1; omega
  have a2 : isRangeB (sortNat ops) = false := by
    rw [Bool.eq_false_iff]
    intro h
    apply hs.2.1
    have hne' : sortNat ops ≠ [] := by
      intro h; have := sortNat_length ops; rw [h] at this
      exact hne (List.length_eq_zero_iff.1 this.symm)
    have hr := isRangeB_isRun hne' h
    have hs' := sortNat_sorted hnd
    have hn' : (sortNat ops).Nodup := hs'.imp (fun h => Nat.ne_of_lt h)
    rw [← perm_runCount (fun x => mem_sortNat) hn' hnd]
    obtain ⟨a, n, hr⟩ := hr
    rw [hr]
    unfold runCount
    have : (List.range' a (n + 1)).filter (fun x => decide (x + 1 ∉ List.range' a (n + 1))) = [a + n] := by
      rw [List.range'_concat, List.filter_append]
      have e1 : (List.range' a n).filter (fun x => decide (x + 1 ∉ List.range' a n ++ [a + 1 * n])) = [] := by
        rw [List.filter_eq_nil_iff]
        intro x hx
        rw [List.mem_range'_1] at hx
        simp only [List.mem_append, List.mem_range'_1, List.mem_singleton]
        simp; omega
      rw [e1]
      simp
    rw [this]; rfl
  have a3 : isOneHotB (sortNat ops) = false := by
    rw [Bool.eq_false_iff]
    intro h
    apply hs.2.2.1
    intro x hx
    have := List.all_eq_true.1 h x (mem_sortNat.2 hx)
    by_cases hx0 : x = 0
    · exact Or.inl hx0
    · exact Or.inr (eq_two_pow_of_and_pred (by simpa using this) hx0)
  have a4 : 11 * runCount ops < 10 * ops.length := hs.2.2.2
  simp [a1, a2, a3, a4]

/-- The code violates C11 on every set of the "several ranges" class: the predicate accepts every bit pattern,
because the disjunction of the range checks starts from `Bit(1)` (assembler_util.py:121). -/
theorem C11_several_ranges_accept_all (ops : List Nat) (w : Nat) (hnd : ops.Nodup)
    (hs : SeveralRanges ops) :
    ∃ v, validatorAfter [] ops w = some v ∧ ∀ b : BV, v b = true := by
  have hne : ops ≠ [] := by intro h; have := hs.1; rw [h] at this; simp at this
  obtain ⟨new, h1, _⟩ := genIsValid_miss w (c := []) hne rfl
  refine ⟨pureV (sortNat ops) w, ?_, ?_⟩
  · simp [validatorAfter, afterRequests, h1, Except.toOption]
  · intro b
    rw [pureV_multi]
    · rfl
    · exact isMultiB_several hnd hs

/-- `C11` fails outright: the codes 0,1,2,5,6,7 of a 4-bit enum also accept 3. -/
theorem C11_violated :
    ¬ ∀ (ops : List Nat) (w : Nat), ops ≠ [] → ops.Nodup → (∀ x ∈ ops, x < 2 ^ w) →
      ∃ v, validatorAfter [] ops w = some v ∧ ∀ b : BV, b.size = w → (v b = true ↔ b.val ∈ ops) := by
  intro h
  have hs : SeveralRanges [0, 1, 2, 5, 6, 7] := by
    refine ⟨by decide, by decide, ?_, by decide⟩
    intro hh
    rcases hh 5 (by decide) with h5 | ⟨i, hi⟩
    · omega
    · rcases i with _ | _ | _ | i
      · omega
      · omega
      · omega
      · have := Nat.two_pow_pos i; rw [Nat.pow_succ, Nat.pow_succ, Nat.pow_succ] at hi; omega
  obtain ⟨v, hv, hacc⟩ := C11_several_ranges_accept_all _ 4 (by decide) hs
  obtain ⟨v', hv', hex⟩ := h [0, 1, 2, 5, 6, 7] 4 (by decide) (by decide) (by decide)
  rw [hv] at hv'
  obtain rfl : v = v' := by simpa using hv'
  have := (hex (BV.ofNat 4 3) rfl).1 (hacc _)
  revert this; decide

/-- What holds for every history: no member is ever rejected, unless the set is a sparse (at least three codes, more than one
run) one-hot set containing 0 that was requested before at a larger width. -/
theorem C11_members_accepted (reqs : List (List Nat × Nat)) (ops : List Nat) (w : Nat) (hne : ops ≠ [])
    (hnd : ops.Nodup) (hfit : ∀ x ∈ ops, x < 2 ^ w)
    (hok : (0 ∉ ops ∨ ops.length < 3 ∨ runCount ops = 1 ∨ ¬ ∀ x ∈ ops, OneHotCode x) ∨
      ∀ r ∈ reqs, (∀ x, x ∈ r.1 ↔ x ∈ ops) → r.2 ≤ w) :
    ∃ v, validatorAfter reqs ops w = some v ∧ ∀ b : BV, b.size = w → b.val ∈ ops → v b = true := by
  obtain ⟨hinv, _⟩ := afterRequests_inv reqs
  have hne' : sortNat ops ≠ [] := by
    intro h; have := sortNat_length ops; rw [h] at this
    exact hne (List.length_eq_zero_iff.1 this.symm)
  obtain ⟨v, c', h1, _, w', h2, h3⟩ := genIsValid_inv
    (P := fun o w' => (∃ r ∈ reqs, r.2 = w' ∧ (sortNat r.1 = o ∨ IsRun o)) ∨ w' = w)
    (hinv.mono fun o w' h => Or.inl h) (ops := ops) (w := w) hne (Or.inr rfl) (fun _ _ _ => Or.inr rfl)
  refine ⟨v, by simp [validatorAfter, h1, Except.toOption], ?_⟩
  intro b hb hmem
  rw [h2]
  apply pureV_accepts (mem_sortNat.2 hmem)
  · intro x hx; rw [hb]; exact hfit x (mem_sortNat.1 hx)
  · intro hoz
    rw [hb]
    unfold oneHotZero at hoz
    simp only [Bool.and_eq_true, Bool.not_eq_true', decide_eq_true_eq, decide_eq_false_iff_not] at hoz
    obtain ⟨⟨⟨o1, o2⟩, o3⟩, o4⟩ := hoz
    rcases hok with hok | hok
    · exfalso
      rcases hok with hok | hok | hok | hok
      · exact hok (mem_sortNat.1 o4)
      · rw [sortNat_length] at o1; omega
      · rw [isRangeB_of_one_run hne hnd hok] at o2; simp at o2
      · apply hok
        intro x hx
        have := List.all_eq_true.1 o3 x (mem_sortNat.2 hx)
        by_cases hx0 : x = 0
        · exact Or.inl hx0
        · exact Or.inr (eq_two_pow_of_and_pred (by simpa using this) hx0)
    · rcases h3 with ⟨r, hr, hrw, hs | hs⟩ | h3
      · rw [← hrw]
        apply hok r hr
        intro x
        rw [← mem_sortNat (l := r.1), hs, mem_sortNat]
      · rw [hs.isRangeB] at o2; simp at o2
      · omega

example : ∃ (reqs : List (List Nat × Nat)) (ops : List Nat), reqs ≠ [] ∧ ops ≠ [] ∧ ops.Nodup ∧
    (∀ x ∈ ops, x < 2 ^ 3) ∧ ∀ r ∈ reqs, (∀ x, x ∈ r.1 ↔ x ∈ ops) → r.2 ≤ 3 :=
  ⟨[([0, 1, 4], 3), ([1, 2], 5)], [0, 1, 4], by decide, by decide, by decide, by decide, by
    intro r hr h
    simp only [List.mem_cons, List.not_mem_nil, or_false] at hr
    rcases hr with rfl | rfl
    · decide
    · exact absurd ((h 0).2 (by decide)) (by decide)⟩

/-! ## C12: independence of history -/

/-- The code violates C12: after a validator for the codes {0} was generated at width 0 (any one-member enum), the
codes {0} at width 2 accept everything, while in a fresh process they accept only 0. -/
theorem C12_violated :
    ¬ ∀ (reqs : List (List Nat × Nat)) (ops : List Nat) (w : Nat), ops ≠ [] → (∀ x ∈ ops, x < 2 ^ w) →
      ∃ v v', validatorAfter reqs ops w = some v ∧ validatorAfter [] ops w = some v' ∧
        ∀ b : BV, b.size = w → v b = v' b := by
  intro h
  obtain ⟨v, v', h1, h2, h3⟩ := h [([0], 0)] [0] 2 (by decide) (by decide)
  have e1 : validatorAfter [([0], 0)] [0] 2 = some vAlways := rfl
  have e2 : validatorAfter [] [0] 2 = some (vNaive [0]) := rfl
  rw [e1] at h1; rw [e2] at h2
  have := h3 (BV.ofNat 2 3) rfl
  simp only [Option.some.injEq] at h1 h2
  subst h1; subst h2
  revert this; decide

/-- Worse, a member can be rejected: after a request for {0,1,4} at width 4, the validator for {0,1,4} at width 3 rejects
the member 0 (the cached predicate excludes 8, and 8 wraps to 0 in three bits). -/
theorem C12_member_rejected :
    ∃ v, validatorAfter [([0, 1, 4], 4)] [0, 1, 4] 3 = some v ∧ v (BV.ofNat 3 0) = false :=
  ⟨vOneHot (invalidOneHot [0, 1, 4] 4), rfl, by decide⟩

/-- C12, partial: the predicate equals the fresh one as soon as all earlier requests for the same codes used the same width (and, when the codes
form one contiguous run, all earlier requests did: runs are also cached as parts of other sets).
Missing: histories mixing widths, for which the property is false (`C12_violated`). -/
theorem C12_history_independent_partial (reqs : List (List Nat × Nat)) (ops : List Nat) (w : Nat)
    (hne : ops ≠ []) (hnd : ops.Nodup)
    (hsame : ∀ r ∈ reqs, ((∀ x, x ∈ r.1 ↔ x ∈ ops) ∨ runCount ops = 1) → r.2 = w) :
    ∃ v, validatorAfter reqs ops w = some v ∧ validatorAfter [] ops w = some v := by
  obtain ⟨hinv, _⟩ := afterRequests_inv reqs
  obtain ⟨v, c', h1, _, w', h2, h3⟩ := genIsValid_inv
    (P := fun o w' => (∃ r ∈ reqs, r.2 = w' ∧ (sortNat r.1 = o ∨ IsRun o)) ∨ w' = w)
    (hinv.mono fun o w' h => Or.inl h) (ops := ops) (w := w) hne (Or.inr rfl) (fun _ _ _ => Or.inr rfl)
  have hw : w' = w := by
    rcases h3 with ⟨r, hr, hrw, hs⟩ | h3
    · rw [← hrw]
      apply hsame r hr
      rcases hs with hs | hs
      · left; intro x; rw [← mem_sortNat (l := r.1), hs, mem_sortNat]
      · right
        have hs' := sortNat_sorted hnd
        have hn' : (sortNat ops).Nodup := hs'.imp (fun h => Nat.ne_of_lt h)
        rw [← perm_runCount (fun x => mem_sortNat) hn' hnd]
        obtain ⟨a, n, hr⟩ := hs
        rw [hr]
        unfold runCount
        have : (List.range' a (n + 1)).filter (fun x => decide (x + 1 ∉ List.range' a (n + 1))) = [a + n] := by
          rw [List.range'_concat, List.filter_append]
          have e1 : (List.range' a n).filter (fun x => decide (x + 1 ∉ List.range' a n ++ [a + 1 * n])) = [] := by
            rw [List.filter_eq_nil_iff]
            intro x hx
            rw [List.mem_range'_1] at hx
            simp only [List.mem_append, List.mem_range'_1, List.mem_singleton]
            simp; omega
          rw [e1]
          simp
        rw [this]; rfl
    · exact h3
  subst hw
  obtain ⟨new, h4, _⟩ := genIsValid_miss w' (c := []) hne rfl
  refine ⟨v, by simp [validatorAfter, h1, Except.toOption], ?_⟩
  rw [h2]
  simp [validatorAfter, afterRequests, h4, Except.toOption]

example : ∃ (reqs : List (List Nat × Nat)) (ops : List Nat), reqs ≠ [] ∧ ops ≠ [] ∧ ops.Nodup ∧
    ∀ r ∈ reqs, ((∀ x, x ∈ r.1 ↔ x ∈ ops) ∨ runCount ops = 1) → r.2 = 3 :=
  ⟨[([1, 4, 0], 3), ([1, 2], 5)], [0, 1, 4], by decide, by decide, by decide, by
    intro r hr h
    simp only [List.mem_cons, List.not_mem_nil, or_false] at hr
    rcases hr with rfl | rfl
    · rfl
    · rcases h with h | h
      · exact absurd ((h 0).2 (by decide)) (by decide)
      · revert h; decide⟩

end Peak
