import Verif.Lemmas.Validator

namespace Peak

theorem lookup_append {α β} [BEq α] (a : α) (l₁ l₂ : List (α × β)) :
    (l₁ ++ l₂).lookup a = (l₁.lookup a).or (l₂.lookup a) := by
  induction l₁ with
  | nil => simp
  | cons p l ih =>
    obtain ⟨k, v⟩ := p
    simp only [List.cons_append, List.lookup_cons]
    split <;> simp [ih]

theorem mem_of_lookup {α β} [BEq α] [LawfulBEq α] {a : α} {b : β} {l : List (α × β)}
    (h : l.lookup a = some b) : (a, b) ∈ l := by
  induction l with
  | nil => simp at h
  | cons p l ih =>
    obtain ⟨k, v⟩ := p
    rw [List.lookup_cons] at h
    split at h
    · next hk => simp at hk h; simp [hk, h]
    · simp [ih h]

theorem lookup_eq_none_of {α β} [BEq α] [LawfulBEq α] {a : α} {l : List (α × β)}
    (h : ∀ e ∈ l, e.1 ≠ a) : l.lookup a = none := by
  cases hl : l.lookup a with
  | none => rfl
  | some b => exact absurd rfl (h _ (mem_of_lookup hl))

/-- contiguous non-empty run of opcodes -/
def IsRun (ops : List Nat) : Prop := ∃ a n, ops = List.range' a (n + 1)

theorem isRun_pyRange {lb i : Nat} (h : lb ≤ i) : IsRun (pyRange lb (i + 1)) :=
  ⟨lb, i - lb, by unfold pyRange; congr 1; omega⟩

theorem range'_head (a n : Nat) : (List.range' a (n + 1)).headD 0 = a := by
  simp [List.range'_succ]

theorem range'_last (a n : Nat) : lastOp (List.range' a (n + 1)) = a + n := by
  unfold lastOp
  rw [List.getLastD_eq_getLast?, List.getLast?_range']
  simp

theorem IsRun.isRangeB {ops : List Nat} (h : IsRun ops) : isRangeB ops = true := by
  obtain ⟨a, n, rfl⟩ := h
  unfold Peak.isRangeB
  rw [range'_head, range'_last]
  simp only [pyRange, beq_iff_eq]
  congr 1; omega

theorem IsRun.sort {ops : List Nat} (h : IsRun ops) : sortNat ops = ops := by
  obtain ⟨a, n, rfl⟩ := h; exact sortNat_range' _ _

theorem isRangeB_isRun {ops : List Nat} (hne : ops ≠ []) (h : isRangeB ops = true) : IsRun ops := by
  unfold isRangeB at h
  simp only [beq_iff_eq] at h
  rw [h]
  refine ⟨ops.headD 0, lastOp ops - ops.headD 0, ?_⟩
  unfold pyRange
  congr 1
  have : pyRange (ops.headD 0) (lastOp ops + 1) ≠ [] := by rw [← h]; exact hne
  unfold pyRange at this
  simp only [ne_eq, List.range'_eq_nil_iff] at this
  omega

theorem getLast_eq_lastOp {ops : List Nat} (h : ops ≠ []) : ops.getLast h = lastOp ops := by
  unfold lastOp
  rw [List.getLastD_eq_getLast?, List.getLast?_eq_some_getLast h]; rfl

theorem setdefault_none {c : VCache} {ops : List Nat} {f : Validator} (h : c.lookup ops = none) :
    c.setdefault ops f = (f, c ++ [(ops, f)]) := by
  simp [VCache.setdefault, h]

theorem pureV_cons (m : Nat) (rest : List Nat) (w : Nat) : pureV (m :: rest) w =
    if isRangeB (m :: rest) && m == 0 && lastOp (m :: rest) == 2 ^ w - 1 then vAlways
    else if (m :: rest).length < 3 then vNaive (m :: rest)
    else if isRangeB (m :: rest) then
      if m == 0 then vUpper (lastOp (m :: rest))
      else if lastOp (m :: rest) == 2 ^ w - 1 then vLower m
      else vBetween m (lastOp (m :: rest))
    else if isOneHotB (m :: rest) then
      if (invalidOneHot (m :: rest) w).length < (m :: rest).length
      then vOneHot (invalidOneHot (m :: rest) w) else vNaive (m :: rest)
    else if 11 * numRanges (m :: rest) < 10 * (m :: rest).length then vAlways
    else vNaive (m :: rest) := rfl

/-- the generator on a cached opcode set -/
theorem genBody_hit (rec) {ops : List Nat} {w : Nat} {c : VCache} {v : Validator}
    (h : c.lookup (sortNat ops) = some v) : genBody rec ops w c = (.ok v, c) := by
  unfold genBody; simp only [h]

/-- the generator on a fresh opcode set that does not reach the multi-range branch -/
theorem genBody_miss (rec) {ops : List Nat} {w : Nat} {c : VCache} (hne : ops ≠ [])
    (h : c.lookup (sortNat ops) = none)
    (hm : (sortNat ops).length < 3 ∨ isRangeB (sortNat ops) = true ∨ isOneHotB (sortNat ops) = true) :
    genBody rec ops w c = (.ok (pureV (sortNat ops) w), c ++ [(sortNat ops, pureV (sortNat ops) w)]) := by
  have hs : sortNat ops ≠ [] := by
    intro hh; have := sortNat_length ops; rw [hh] at this
    exact hne (List.length_eq_zero_iff.1 this.symm)
  unfold genBody
  simp only [h]
  generalize hS : sortNat ops = S at *
  cases S with
  | nil => exact absurd rfl hs
  | cons m rest =>
    simp only [getLast_eq_lastOp]
    have hr : ((m :: rest) == pyRange m (lastOp (m :: rest) + 1)) = isRangeB (m :: rest) := by
      simp [isRangeB]
    rw [hr]
    rw [pureV_cons]
    by_cases h1 : (isRangeB (m :: rest) && m == 0 && lastOp (m :: rest) == 2 ^ w - 1) = true
    · rw [if_pos h1, if_pos h1]; simp [setdefault_none h]
    rw [if_neg h1, if_neg h1]
    by_cases h2 : (m :: rest).length < 3
    · rw [if_pos h2, if_pos h2]; simp [setdefault_none h]
    rw [if_neg h2, if_neg h2]
    by_cases h3 : isRangeB (m :: rest) = true
    · rw [if_pos h3, if_pos h3]
      split
      · simp [setdefault_none h]
      · split <;> simp [setdefault_none h]
    rw [if_neg h3, if_neg h3]
    have h4 : isOneHotB (m :: rest) = true := by
      rcases hm with h | h | h
      · exact absurd h h2
      · exact absurd h h3
      · exact h
    have h4' : ((m :: rest).all fun x => x &&& x - 1 == 0) = true := h4
    rw [if_pos h4', if_pos h4]
    split <;> simp [setdefault_none h]

/-- depth one suffices on runs -/
theorem genRec_one_run {r : List Nat} (hr : IsRun r) (w : Nat) (c : VCache) :
    ∃ v new, genRec 1 r w c = (.ok v, c ++ new) ∧ (∀ e ∈ new, e.1 = r ∧ e.2 = pureV e.1 w) := by
  have hs := hr.sort
  have hne : r ≠ [] := by obtain ⟨a, n, rfl⟩ := hr; simp
  simp only [genRec]
  cases h : c.lookup r with
  | some v =>
    exact ⟨v, [], by rw [genBody_hit _ (by rw [hs]; exact h)]; simp, by simp⟩
  | none =>
    refine ⟨pureV r w, [(r, pureV r w)], ?_, ?_⟩
    · rw [genBody_miss _ hne (by rw [hs]; exact h) (by rw [hs]; exact Or.inr (Or.inl hr.isRangeB)), hs]
    · simp

theorem splitRanges_runs (rest : List Nat) : ∀ (lb i : Nat), lb ≤ i →
    ∀ r ∈ splitRanges lb i rest, IsRun r := by
  induction rest with
  | nil => intro lb i h r hr; simp [splitRanges] at hr; rw [hr]; exact isRun_pyRange h
  | cons j rest ih =>
    intro lb i h r hr
    simp only [splitRanges] at hr
    split at hr
    · next hj => exact ih lb j (by omega) r hr
    · rcases List.mem_cons.1 hr with hr | hr
      · rw [hr]; exact isRun_pyRange h
      · exact ih j j (Nat.le_refl _) r hr

theorem splitRanges_flatten (rest : List Nat) : ∀ (lb i : Nat), lb ≤ i →
    (splitRanges lb i rest).flatten = pyRange lb (i + 1) ++ rest := by
  induction rest with
  | nil => intro lb i h; simp [splitRanges]
  | cons j rest ih =>
    intro lb i h
    simp only [splitRanges]
    split
    · next hj =>
      subst hj
      rw [ih lb (i + 1) (by omega)]
      have : pyRange lb (i + 1 + 1) = pyRange lb (i + 1) ++ [i + 1] := by
        unfold pyRange
        rw [show i + 1 + 1 - lb = (i + 1 - lb) + 1 by omega, List.range'_concat]
        congr 2; omega
      rw [this]; simp
    · rw [List.flatten_cons, ih j j (Nat.le_refl _)]
      congr 1
      simp [pyRange]

theorem genRanges_runs (rs : List (List Nat)) (hrs : ∀ r ∈ rs, IsRun r) (w : Nat) (c : VCache) :
    ∃ vs new, genRanges (fun r c => genRec 1 r w c) rs c = (.ok vs, c ++ new) ∧
      vs.length = rs.length ∧ (∀ e ∈ new, e.1 ∈ rs ∧ e.2 = pureV e.1 w) := by
  induction rs generalizing c with
  | nil => exact ⟨[], [], by simp [genRanges], rfl, by simp⟩
  | cons r rs ih =>
    obtain ⟨v, n1, h1, h1'⟩ := genRec_one_run (hrs r (by simp)) w c
    obtain ⟨vs, n2, h2, hl, h2'⟩ := ih (fun r hr => hrs r (by simp [hr])) (c ++ n1)
    refine ⟨v :: vs, n1 ++ n2, ?_, by simp [hl], ?_⟩
    · simp [genRanges, h1, h2, List.append_assoc]
    · intro e he
      rcases List.mem_append.1 he with he | he
      · exact ⟨by simp [(h1' e he).1], (h1' e he).2⟩
      · exact ⟨by simp [(h2' e he).1], (h2' e he).2⟩

theorem genBody_run_rec {r : List Nat} (hr : IsRun r) (rec rec' : List Nat → VCache → Except Err Validator × VCache)
    (w : Nat) (c : VCache) : genBody rec r w c = genBody rec' r w c := by
  have hne : r ≠ [] := by obtain ⟨a, n, rfl⟩ := hr; simp
  cases h : c.lookup (sortNat r) with
  | some v => rw [genBody_hit _ h, genBody_hit _ h]
  | none =>
    have := Or.inr (a := (sortNat r).length < 3) (Or.inl (b := isOneHotB (sortNat r) = true)
      (by rw [hr.sort]; exact hr.isRangeB : isRangeB (sortNat r) = true))
    rw [genBody_miss _ hne h this, genBody_miss _ hne h this]

theorem genRanges_congr {rec rec' : List Nat → VCache → Except Err Validator × VCache} (rs : List (List Nat))
    (h : ∀ r ∈ rs, ∀ c, rec r c = rec' r c) (c : VCache) : genRanges rec rs c = genRanges rec' rs c := by
  induction rs generalizing c with
  | nil => rfl
  | cons r rs ih =>
    have := ih (fun r hr => h r (by simp [hr]))
    simp only [genRanges, h r (by simp), this]

/-- The recursion of `_gen_is_valid` never goes deeper than two levels. -/
theorem genRec_depth (n : Nat) (ops : List Nat) (w : Nat) (c : VCache) :
    genRec (n + 2) ops w c = genIsValid ops w c := by
  have key : ∀ m rest c, genRanges (fun r c => genRec (n + 1) r w c) (splitRanges m m rest) c =
      genRanges (fun r c => genRec 1 r w c) (splitRanges m m rest) c := by
    intro m rest c
    apply genRanges_congr
    intro r hr c
    exact genBody_run_rec (splitRanges_runs rest m m (Nat.le_refl _) r hr) _ _ w c
  unfold genIsValid
  rw [genRec, genRec]
  unfold genBody
  simp only [key]

theorem genIsValid_hit {ops : List Nat} {w : Nat} {c : VCache} {v : Validator}
    (h : c.lookup (sortNat ops) = some v) : genIsValid ops w c = (.ok v, c) := genBody_hit _ h

/-- a fresh generation stores (and returns) `pureV`, plus possibly validators of contiguous runs -/
theorem genIsValid_miss {ops : List Nat} (w : Nat) {c : VCache} (hne : ops ≠ [])
    (h : c.lookup (sortNat ops) = none) :
    ∃ new, genIsValid ops w c = (.ok (pureV (sortNat ops) w), c ++ new) ∧
      ∀ e ∈ new, ((IsRun e.1 ∧ ∀ x ∈ e.1, x ∈ ops) ∨ e.1 = sortNat ops) ∧ e.2 = pureV e.1 w := by
  by_cases hm : (sortNat ops).length < 3 ∨ isRangeB (sortNat ops) = true ∨ isOneHotB (sortNat ops) = true
  · exact ⟨_, genBody_miss _ hne h hm, by simp⟩
  · simp only [not_or] at hm
    obtain ⟨m1, m2, m3⟩ := hm
    have hs : sortNat ops ≠ [] := by
      intro hh; rw [hh] at m1; simp at m1
    have hg0 := fun rs hrs => genRanges_runs rs hrs w c
    change ∃ new, genBody (fun r c => genRec 1 r w c) ops w c = _ ∧ _
    generalize (fun (r : List Nat) (c : VCache) => genRec 1 r w c) = rec at *
    unfold genBody
    simp only [h]
    generalize hS : sortNat ops = S at *
    cases S with
    | nil => exact absurd rfl hs
    | cons m rest =>
      simp only [getLast_eq_lastOp]
      have hr : ((m :: rest) == pyRange m (lastOp (m :: rest) + 1)) = isRangeB (m :: rest) := by
        simp [isRangeB]
      rw [hr]
      have h1 : ¬ (isRangeB (m :: rest) && m == 0 && lastOp (m :: rest) == 2 ^ w - 1) = true := by
        simp [m2]
      have m3' : ¬ ((m :: rest).all fun x => x &&& x - 1 == 0) = true := m3
      rw [if_neg h1, if_neg m1, if_neg m2, if_neg m3']
      obtain ⟨vs, new, hg, hl, hnew0⟩ := hg0 (splitRanges m m rest)
        (splitRanges_runs rest m m (Nat.le_refl _))
      have hnew : ∀ e ∈ new, (IsRun e.1 ∧ ∀ x ∈ e.1, x ∈ ops) ∧ e.2 = pureV e.1 w := by
        intro e he
        obtain ⟨n1, n2⟩ := hnew0 e he
        refine ⟨⟨splitRanges_runs rest m m (Nat.le_refl _) _ n1, ?_⟩, n2⟩
        intro x hx
        have hf := splitRanges_flatten rest m m (Nat.le_refl _)
        have : x ∈ (splitRanges m m rest).flatten := List.mem_flatten.2 ⟨_, n1, hx⟩
        rw [hf] at this
        rw [← mem_sortNat, hS]
        simpa [pyRange] using this
      simp only [hg]
      have hlook : (c ++ new).lookup (m :: rest) = none := by
        rw [lookup_append, h]
        simp only [Option.none_or]
        apply lookup_eq_none_of
        intro e he heq
        have := (hnew e he).1.1.isRangeB
        rw [heq] at this; exact m2 this
      have hn : numRanges (m :: rest) = vs.length := by simp [numRanges, hl]
      have hp : pureV (m :: rest) w =
          if 11 * vs.length < 10 * (m :: rest).length then vAlways else vNaive (m :: rest) := by
        rw [pureV_cons, if_neg h1, if_neg m1, if_neg m2, if_neg m3, hn]
      split
      · next hc =>
        refine ⟨new ++ [(m :: rest, vAlways)], ?_, ?_⟩
        · rw [hp, if_pos hc]; simp [setdefault_none hlook, vRanges_eq]
        · intro e he
          rcases List.mem_append.1 he with he | he
          · exact ⟨Or.inl (hnew e he).1, (hnew e he).2⟩
          · simp only [List.mem_singleton] at he
            subst he
            exact ⟨Or.inr rfl, by rw [hp, if_pos hc]⟩
      · next hc =>
        refine ⟨new ++ [(m :: rest, vNaive (m :: rest))], ?_, ?_⟩
        · rw [hp, if_neg hc]; simp [setdefault_none hlook]
        · intro e he
          rcases List.mem_append.1 he with he | he
          · exact ⟨Or.inl (hnew e he).1, (hnew e he).2⟩
          · simp only [List.mem_singleton] at he
            subst he
            exact ⟨Or.inr rfl, by rw [hp, if_neg hc]⟩

/-! ### correctness of the generated validator -/

theorem run_mem {ops : List Nat} (_hne : ops ≠ []) (h : isRangeB ops = true) (x : Nat) :
    x ∈ ops ↔ ops.headD 0 ≤ x ∧ x ≤ lastOp ops := by
  have h' := h
  unfold isRangeB at h
  simp only [beq_iff_eq] at h
  conv => lhs; rw [h]
  rw [mem_pyRange]; omega

theorem headD_mem {ops : List Nat} (hne : ops ≠ []) : ops.headD 0 ∈ ops := by
  cases ops with
  | nil => exact absurd rfl hne
  | cons a l => simp

theorem lastOp_mem {ops : List Nat} (hne : ops ≠ []) : lastOp ops ∈ ops := by
  rw [← getLast_eq_lastOp hne]; exact List.getLast_mem hne

/-- Except for the multi-range strategy, the generated validator is exact at its own width. -/
theorem pureV_exact {ops : List Nat} {w : Nat} (hne : ops ≠ []) (hfit : ∀ x ∈ ops, x < 2 ^ w)
    (hm : isMultiB ops = false) (b : BV) (hb : b.size = w) :
    pureV ops w b = true ↔ b.val ∈ ops := by
  have hlt := b.isLt
  have hnaive : vNaive ops b = true ↔ b.val ∈ ops := by
    rw [vNaive_iff]
    constructor
    · rintro ⟨c, hc, h⟩
      rw [hb, Nat.mod_eq_of_lt (hfit c hc)] at h
      exact h ▸ hc
    · intro h; exact ⟨_, h, by rw [Nat.mod_eq_of_lt b.isLt]⟩
  have hmin := hfit _ (headD_mem hne)
  have hmax := hfit _ (lastOp_mem hne)
  rw [hb] at hlt
  unfold pureV
  split
  · next h =>
    simp only [Bool.and_eq_true, beq_iff_eq] at h
    simp only [vAlways, true_iff]
    rw [run_mem hne h.1.1]; omega
  split
  · exact hnaive
  split
  · next h =>
    rw [run_mem hne h]
    split
    · next h0 =>
      simp only [beq_iff_eq] at h0
      rw [vUpper_iff, hb, Nat.mod_eq_of_lt hmax]; omega
    · split
      · next h0 =>
        simp only [beq_iff_eq] at h0
        rw [vLower_iff, hb, Nat.mod_eq_of_lt hmin]; omega
      · rw [vBetween_iff, hb, Nat.mod_eq_of_lt hmax, Nat.mod_eq_of_lt hmin]
  split
  · next hoh =>
    split
    · rw [vOneHot_iff]
      constructor
      · rintro ⟨h1, h2⟩
        by_cases hmem : b.val ∈ ops
        · exact hmem
        · exfalso
          by_cases h0 : b.val = 0
          · refine h2 0 ?_ (by simp [h0])
            rw [mem_invalidOneHot]; left; exact ⟨rfl, h0 ▸ hmem⟩
          · obtain ⟨i, hi⟩ := eq_two_pow_of_and_pred h1 h0
            refine h2 (2 ^ i) ?_ ?_
            · rw [mem_invalidOneHot]; right
              refine ⟨⟨i, ?_, rfl⟩, hi ▸ hmem⟩
              rw [hi] at hlt
              exact (Nat.pow_lt_pow_iff_right (by omega)).1 hlt
            · rw [← hi, Nat.mod_eq_of_lt b.isLt]
      · intro h
        refine ⟨?_, ?_⟩
        · have := List.all_eq_true.1 hoh _ h
          simpa using this
        · intro c hc heq
          rw [mem_invalidOneHot] at hc
          rcases hc with ⟨rfl, hc⟩ | ⟨⟨i, hi, rfl⟩, hc⟩
          · simp at heq; exact hc (heq ▸ h)
          · rw [hb, Nat.mod_eq_of_lt (Nat.pow_lt_pow_right (by omega) hi)] at heq
            exact hc (heq ▸ h)
    · exact hnaive
  split
  · exfalso
    simp_all [isMultiB]
  · exact hnaive

/-- the multi-range strategy accepts everything -/
theorem pureV_multi {ops : List Nat} {w : Nat} (hm : isMultiB ops = true) : pureV ops w = vAlways := by
  unfold isMultiB at hm
  simp only [Bool.and_eq_true, Bool.not_eq_true', decide_eq_true_eq] at hm
  obtain ⟨⟨⟨h1, h2⟩, h3⟩, h4⟩ := hm
  have h1' : ¬ ops.length < 3 := by simpa using h1
  unfold pureV
  simp [h2, h1', h3, h4]

/-- opcode sets for which the validator depends on the width in a way that can reject a member -/
def oneHotZero (ops : List Nat) : Bool :=
  !(ops.length < 3) && !isRangeB ops && isOneHotB ops && (0 ∈ ops)

/-- A validator generated for width `w'` accepts every member at any width in which all members fit,
unless the set is a sparse one-hot set containing zero and the width is smaller than `w'`. -/
theorem pureV_accepts {ops : List Nat} {w' : Nat} {b : BV} (hb : b.val ∈ ops)
    (hfit : ∀ x ∈ ops, x < 2 ^ b.size) (hw : oneHotZero ops = true → w' ≤ b.size) :
    pureV ops w' b = true := by
  have hne : ops ≠ [] := by intro h; rw [h] at hb; simp at hb
  have hlt := b.isLt
  have hnaive : vNaive ops b = true := by
    rw [vNaive_iff]
    exact ⟨_, hb, by rw [Nat.mod_eq_of_lt b.isLt]⟩
  have hmin := hfit _ (headD_mem hne)
  have hmax := hfit _ (lastOp_mem hne)
  unfold pureV
  split
  · rfl
  split
  · exact hnaive
  split
  · next h =>
    have := (run_mem hne h b.val).1 hb
    split
    · rw [vUpper_iff, Nat.mod_eq_of_lt hmax]; omega
    · split
      · rw [vLower_iff, Nat.mod_eq_of_lt hmin]; omega
      · rw [vBetween_iff, Nat.mod_eq_of_lt hmax, Nat.mod_eq_of_lt hmin]; omega
  split
  · next h3 hr hoh =>
    split
    · rw [vOneHot_iff]
      refine ⟨?_, ?_⟩
      · have := List.all_eq_true.1 hoh _ hb
        simpa using this
      · intro c hc heq
        rw [mem_invalidOneHot] at hc
        rcases hc with ⟨rfl, hc⟩ | ⟨⟨i, hi, rfl⟩, hc⟩
        · simp at heq; exact hc (heq ▸ hb)
        · by_cases hib : i < b.size
          · rw [Nat.mod_eq_of_lt (Nat.pow_lt_pow_right (by omega) hib)] at heq
            exact hc (heq ▸ hb)
          · have hz : 2 ^ i % 2 ^ b.size = 0 :=
              Nat.mod_eq_zero_of_dvd (Nat.pow_dvd_pow 2 (by omega))
            rw [hz] at heq
            have hoz : oneHotZero ops = true := by
              have hr' : isRangeB ops = false := by simpa using hr
              simp only [oneHotZero, hr', hoh]
              rw [heq] at hb
              simp [hb]; omega
            have := hw hoz
            omega
    · exact hnaive
  split
  · rfl
  · exact hnaive

end Peak
