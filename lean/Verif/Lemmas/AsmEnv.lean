import Verif.Lemmas.AsmBuild
/-! The three sets of assumptions under which histories are analysed. -/

namespace Peak
open Peak.Spec

/-! ### no assumption -/

def Env.any : Env where
  A _ _ := True
  P _ _ := True
  acc := False
  ex := False
  hP _ _ _ _ := trivial
  hR _ _ _ _ _ _ := trivial
  hacc h := h.elim
  hex h := h.elim

mutual
theorem reqs_any : ∀ t : Ty, Reqs Env.any.A t
  | .bv _ _ => trivial
  | .bit _ => trivial
  | .enum _ _ => fun _ _ _ => trivial
  | .prod _ fs => reqsAll_any fs
  | .sum _ fs => ⟨reqsAll_any fs, fun _ => trivial, fun _ _ => trivial⟩
theorem reqsAll_any : ∀ fs : Fields, ReqsAll Env.any.A fs
  | .nil => trivial
  | .cons _ t fs => ⟨reqs_any t, reqsAll_any fs⟩
end

/-! ### no clash of sparse one-hot sets -/

theorem listMax_sort (ops : List Nat) : listMax (sortNat ops) = listMax ops :=
  foldl_max_congr (fun _ => mem_sortNat)

theorem IsRun.not_oneHotZero {r : List Nat} (h : IsRun r) : oneHotZero r = false := by
  simp [oneHotZero, h.isRangeB]

def Env.tagSafe : Env where
  A ops w := (∀ x ∈ ops, x < 2 ^ w) ∧ (oneHotZero (sortNat ops) = true → w = bitLength (listMax ops))
  P o w' := oneHotZero o = true → w' = bitLength (listMax o)
  acc := True
  ex := False
  hP ops w h _ ho := by rw [listMax_sort]; exact h.2 ho
  hR ops w r _ hr _ ho := by rw [hr.not_oneHotZero] at ho; simp at ho
  hacc _ ops w w' hA hP b hb hm := by
    apply pureV_accepts (mem_sortNat.2 hm)
    · intro x hx; rw [hb]; exact hA.1 x (mem_sortNat.1 hx)
    · intro ho
      rw [hP ho, listMax_sort, ← hA.2 ho, hb]; exact Nat.le_refl _
  hex h := h.elim

theorem oneHotZero_sparse {ops : List Nat} (hn : ops.Nodup) (h : oneHotZero (sortNat ops) = true) :
    SparseOneHotWithZero ops := by
  unfold oneHotZero at h
  simp only [Bool.and_eq_true, Bool.not_eq_true', decide_eq_true_eq, decide_eq_false_iff_not] at h
  obtain ⟨⟨⟨h1, h2⟩, h3⟩, h4⟩ := h
  rw [sortNat_length] at h1
  have hne : ops ≠ [] := by intro h; rw [h] at h1; simp at h1
  refine ⟨by omega, mem_sortNat.1 h4, ?_, ?_⟩
  · intro hr
    rw [isRangeB_of_one_run hne hn hr] at h2; simp at h2
  · intro x hx
    have := List.all_eq_true.1 h3 x (mem_sortNat.2 hx)
    by_cases hx0 : x = 0
    · exact Or.inl hx0
    · exact Or.inr (eq_two_pow_of_and_pred (by simpa using this) hx0)

theorem tagsOf_lt {ty : Ty} {l : List (Key × Ty)} {x : Nat} (h : x ∈ tagsOf ty l 0) : x < l.length := by
  obtain ⟨j, k, h1, h2⟩ := mem_tagsOf.1 h
  have := (List.getElem?_eq_some_iff.1 h2).1; omega

theorem tagsOf_nodup (ty : Ty) (l : List (Key × Ty)) : (tagsOf ty l 0).Nodup :=
  (tagsOf_sorted ty l 0).imp (fun h => Nat.ne_of_lt h)

theorem isRun_range {n : Nat} (h : n ≠ 0) : IsRun (List.range n) :=
  ⟨0, n - 1, by rw [List.range_eq_range']; congr 1; omega⟩

mutual
theorem reqs_tagSafe : ∀ t : Ty, TagSafe t → Reqs Env.tagSafe.A t
  | .bv _ _, _ => trivial
  | .bit _, _ => trivial
  | .enum _ ms, _ => by
    intro a ha hne
    refine ⟨?_, fun _ => rfl⟩
    intro x hx
    have h1 := le_foldl_max hx
    have h2 := lt_two_pow_bitLength (listMax (dictValues a.asm []))
    unfold listMax at *; omega
  | .prod _ fs, h => reqsAll_tagSafe fs h
  | .sum _ fs, h => by
    refine ⟨reqsAll_tagSafe fs h.1, ?_, ?_⟩
    · intro hne
      have hn : fs.toList.length ≠ 0 := fun h => hne (List.length_eq_zero_iff.1 h)
      refine ⟨?_, ?_⟩
      · intro x hx; rw [List.mem_range] at hx; exact lt_tagBits hx
      · intro ho; rw [(isRun_range hn).sort, (isRun_range hn).not_oneHotZero] at ho; simp at ho
    · intro ty _
      refine ⟨?_, ?_⟩
      · intro x hx; exact lt_tagBits (tagsOf_lt hx)
      · intro ho; exact absurd (oneHotZero_sparse (tagsOf_nodup _ _) ho) (h.2 ty)
theorem reqsAll_tagSafe : ∀ fs : Fields, TagSafes fs → ReqsAll Env.tagSafe.A fs
  | .nil, _ => trivial
  | .cons _ t fs, h => ⟨reqs_tagSafe t h.1, reqsAll_tagSafe fs h.2⟩
end

/-! ### exact validators -/

/-- A run whose largest code is not all ones has an exact validator at every width. -/
theorem pureV_run_exact {ops : List Nat} {w' : Nat} (hne : ops ≠ []) (hr : isRangeB ops = true)
    (hub : lastOp ops ≠ 2 ^ w' - 1) (b : BV) (hfit : ∀ x ∈ ops, x < 2 ^ b.size) :
    pureV ops w' b = true ↔ b.val ∈ ops := by
  have hmin := hfit _ (headD_mem hne)
  have hmax := hfit _ (lastOp_mem hne)
  have hub' : (lastOp ops == 2 ^ w' - 1) = false := by simpa using hub
  unfold pureV
  rw [hub', hr]
  simp only [Bool.and_false, Bool.false_eq_true, if_false, if_true]
  split
  · rw [vNaive_iff]
    constructor
    · rintro ⟨c, hc, h⟩
      rw [Nat.mod_eq_of_lt (hfit c hc)] at h
      exact h ▸ hc
    · intro h; exact ⟨_, h, by rw [Nat.mod_eq_of_lt b.isLt]⟩
  · rw [run_mem hne hr]
    split
    · next h0 =>
      simp only [beq_iff_eq] at h0
      rw [vUpper_iff, Nat.mod_eq_of_lt hmax]; omega
    · rw [vBetween_iff, Nat.mod_eq_of_lt hmax, Nat.mod_eq_of_lt hmin]

theorem pureV_single_exact {x w' : Nat} (hw : 1 ≤ w') (b : BV) (hfit : x < 2 ^ b.size) :
    pureV [x] w' b = true ↔ b.val ∈ [x] := by
  have h2 : 2 ≤ 2 ^ w' := by
    calc 2 = 2 ^ 1 := rfl
      _ ≤ 2 ^ w' := Nat.pow_le_pow_right (by omega) hw
  have hn : vNaive [x] b = true ↔ b.val ∈ [x] := by
    rw [vNaive_iff]
    constructor
    · rintro ⟨c, hc, h⟩
      simp only [List.mem_singleton] at hc
      subst hc
      rw [Nat.mod_eq_of_lt hfit] at h
      simp [h]
    · intro h; exact ⟨_, h, by rw [Nat.mod_eq_of_lt b.isLt]⟩
  have hl : lastOp [x] = x := by simp [lastOp]
  have hc : ¬ (isRangeB [x] && ([x] : List Nat).headD 0 == 0 && lastOp [x] == 2 ^ w' - 1) = true := by
    rw [hl]
    intro h
    simp only [Bool.and_eq_true, beq_iff_eq, List.headD_cons] at h
    omega
  unfold pureV
  rw [if_neg hc, if_pos (by simp)]
  exact hn

theorem listMax_mem {ops : List Nat} (hne : ops ≠ []) : listMax ops ∈ ops := by
  unfold listMax
  have : ∀ (l : List Nat) (a : Nat), l.foldl max a = a ∨ l.foldl max a ∈ l := by
    intro l
    induction l with
    | nil => intro a; left; rfl
    | cons x l ih =>
      intro a
      rw [List.foldl_cons]
      rcases ih (max a x) with h | h
      · rcases Nat.le_total a x with h' | h'
        · right; rw [h, Nat.max_eq_right h']; exact List.mem_cons_self
        · left; rw [h, Nat.max_eq_left h']
      · right; exact List.mem_cons_of_mem _ h
  rcases this ops 0 with h | h
  · cases ops with
    | nil => exact absurd rfl hne
    | cons x l =>
      have hx : x ≤ (x :: l).foldl max 0 := le_foldl_max List.mem_cons_self
      rw [h] at hx ⊢
      have : x = 0 := by omega
      simp [this]
  · exact h

theorem listMax_pos {ops : List Nat} (hn : ops.Nodup) (h : 2 ≤ ops.length) : 0 < listMax ops := by
  rcases Nat.eq_zero_or_pos (listMax ops) with h0 | h0
  · exfalso
    have : ∀ x ∈ ops, x = 0 := by
      intro x hx
      have : x ≤ listMax ops := le_foldl_max hx
      omega
    cases ops with
    | nil => simp at h
    | cons x l =>
      cases l with
      | nil => simp at h
      | cons y l =>
        have h1 := this x (by simp)
        have h2 := this y (by simp)
        simp [h1, h2] at hn
  · exact h0

theorem bitLength_pos {n : Nat} (h : 0 < n) : 1 ≤ bitLength n := by
  unfold bitLength; rw [if_neg (by omega)]; omega

theorem sort_ne_nil {ops : List Nat} (h : ops ≠ []) : sortNat ops ≠ [] := by
  intro h'; have := sortNat_length ops; rw [h'] at this
  exact h (List.length_eq_zero_iff.1 this.symm)

theorem lastOp_run_max {r : List Nat} (h : IsRun r) : lastOp r = listMax r := by
  obtain ⟨a, n, rfl⟩ := h
  rw [range'_last]
  have h1 : a + n ≤ listMax (List.range' a (n + 1)) := le_foldl_max (by rw [List.mem_range'_1]; omega)
  have h2 : listMax (List.range' a (n + 1)) ∈ List.range' a (n + 1) := listMax_mem (by simp)
  rw [List.mem_range'_1] at h2; omega

/-- Requests whose validators accept at least the codes: all but those for a single code 0 of width 0. -/
def Env.mild : Env where
  A ops w := ops ≠ [] ∧ ops.Nodup ∧ (∀ x ∈ ops, x < 2 ^ w) ∧
    (ops.length = 1 → 1 ≤ w) ∧ (2 ≤ ops.length → w = bitLength (listMax ops))
  P o w' := (∀ x ∈ o, x < 2 ^ w') ∧ (o.length = 1 → 1 ≤ w') ∧ (¬ IsRun o → w' = bitLength (listMax o))
  acc := True
  ex := False
  hP ops w h hne := by
    obtain ⟨h0, h1, h2, h4, h5⟩ := h
    refine ⟨fun x hx => h2 x (mem_sortNat.1 hx), by rw [sortNat_length]; exact h4, ?_⟩
    intro hr
    rw [listMax_sort]
    apply h5
    rcases Nat.lt_or_ge ops.length 2 with hl | hl
    · exfalso
      have hl1 : ops.length = 1 := by
        have : ops.length ≠ 0 := fun h => hne (List.length_eq_zero_iff.1 h)
        omega
      obtain ⟨x, rfl⟩ := List.length_eq_one_iff.1 hl1
      exact hr ⟨x, 0, rfl⟩
    · exact hl
  hR ops w r h hr hs := by
    obtain ⟨h0, h1, h2, h4, h5⟩ := h
    refine ⟨fun x hx => h2 x (hs x hx), fun _ => ?_, fun h => absurd hr h⟩
    rcases Nat.lt_or_ge ops.length 2 with hl | hl
    · have : ops.length ≠ 0 := fun h => h0 (List.length_eq_zero_iff.1 h)
      exact h4 (by omega)
    · rw [h5 hl]; exact bitLength_pos (listMax_pos h1 hl)
  hacc _ ops w w' hA hP b hb hm := by
    obtain ⟨h0, h1, h2, h4, h5⟩ := hA
    apply pureV_accepts (mem_sortNat.2 hm)
    · intro x hx; rw [hb]; exact h2 x (mem_sortNat.1 hx)
    · intro ho
      have hnr : ¬ IsRun (sortNat ops) := by
        intro hr; rw [hr.not_oneHotZero] at ho; simp at ho
      rw [hP.2.2 hnr, listMax_sort, hb, ← h5]
      · exact Nat.le_refl _
      · have := (oneHotZero_sparse h1 ho).1; omega
  hex h := h.elim

/-- ... and unless the codes form several ranges, only the codes. -/
theorem mild_exact {ops : List Nat} {w w' : Nat} (hA : Env.mild.A ops w) (hP : Env.mild.P (sortNat ops) w')
    (h3 : isMultiB (sortNat ops) = false) (b : BV) (hb : b.size = w) (hv : pureV (sortNat ops) w' b = true) :
    b.val ∈ ops := by
  obtain ⟨h0, h1, h2, h4, h5⟩ := hA
  have hfit : ∀ x ∈ sortNat ops, x < 2 ^ b.size := by
    intro x hx; rw [hb]; exact h2 x (mem_sortNat.1 hx)
  rw [← mem_sortNat]
  rcases Nat.lt_or_ge ops.length 2 with hl | hl
  · have hl1 : (sortNat ops).length = 1 := by
      have : ops.length ≠ 0 := fun h => h0 (List.length_eq_zero_iff.1 h)
      rw [sortNat_length]; omega
    have hw' := hP.2.1 hl1
    obtain ⟨x, hx⟩ := List.length_eq_one_iff.1 hl1
    rw [hx] at hv hfit ⊢
    exact (pureV_single_exact hw' b (hfit x (by simp))).1 hv
  · by_cases hr : IsRun (sortNat ops)
    · by_cases hw : w' = w
      · subst hw
        exact (pureV_exact (sort_ne_nil h0) (fun x hx => h2 x (mem_sortNat.1 hx)) h3 b hb).1 hv
      · refine (pureV_run_exact (sort_ne_nil h0) hr.isRangeB ?_ b hfit).1 hv
        rw [lastOp_run_max hr, listMax_sort]
        have hlt := lt_two_pow_bitLength (listMax ops)
        rw [← h5 hl] at hlt
        have hm : listMax ops < 2 ^ w' := hP.1 _ (mem_sortNat.2 (listMax_mem h0))
        have hle : w ≤ w' := by rw [h5 hl, bitLength_le_iff]; exact hm
        have : 2 ^ (w + 1) ≤ 2 ^ w' := Nat.pow_le_pow_right (by omega) (by omega)
        rw [Nat.pow_succ] at this
        have := Nat.two_pow_pos w
        omega
    · have hw : w' = w := by rw [hP.2.2 hr, listMax_sort, h5 hl]
      subst hw
      exact (pureV_exact (sort_ne_nil h0) (fun x hx => h2 x (mem_sortNat.1 hx)) h3 b hb).1 hv

def Env.checkable : Env where
  A ops w := Env.mild.A ops w ∧ isMultiB (sortNat ops) = false
  P := Env.mild.P
  acc := True
  ex := True
  hP ops w h := Env.mild.hP ops w h.1
  hR ops w r h := Env.mild.hR ops w r h.1
  hacc _ ops w w' h := Env.mild.hacc trivial ops w w' h.1
  hex _ _ _ _ h hP b hb hv := mild_exact h.1 hP h.2 b hb hv

theorem severalRanges_congr {a b : List Nat} (h : ∀ x, x ∈ a ↔ x ∈ b) (ha : a.Nodup) (hb : b.Nodup) :
    SeveralRanges a ↔ SeveralRanges b := by
  have hp : a.Perm b := (List.perm_ext_iff_of_nodup ha hb).2 h
  unfold SeveralRanges
  rw [hp.length_eq, perm_runCount h ha hb]
  simp only [h]

/-- outside the "several ranges" class -/
theorem isMultiB_false {ops : List Nat} (hne : ops ≠ []) (hnd : ops.Nodup) (hs : ¬ SeveralRanges ops) :
    isMultiB (sortNat ops) = false := by
  unfold isMultiB
  rw [numRanges_sort hne hnd, sortNat_length]
  by_cases a1 : ops.length < 3
  · simp [a1]
  by_cases a2 : isRangeB (sortNat ops) = true
  · simp [a2]
  by_cases a3 : isOneHotB (sortNat ops) = true
  · simp [a3]
  by_cases a4 : 11 * runCount ops < 10 * ops.length
  · exfalso
    apply hs
    refine ⟨by omega, ?_, ?_, a4⟩
    · intro h; exact a2 (isRangeB_of_one_run hne hnd h)
    · intro h; exact a3 (isOneHotB_sort h)
  · simp [a4]

theorem tagsOf_single {ty : Ty} {l : List (Key × Ty)} (hn : (l.map (·.2)).Nodup) : (tagsOf ty l 0).length ≤ 1 := by
  have hinj : ∀ x ∈ tagsOf ty l 0, ∀ y ∈ tagsOf ty l 0, x = y := by
    intro x hx y hy
    obtain ⟨j, k, h1, h2⟩ := mem_tagsOf.1 hx
    obtain ⟨j', k', h1', h2'⟩ := mem_tagsOf.1 hy
    have e1 : (l.map (·.2))[j]? = some ty := by simp [h2]
    have e2 : (l.map (·.2))[j']? = some ty := by simp [h2']
    obtain ⟨g1, g2⟩ := List.getElem?_eq_some_iff.1 e1
    obtain ⟨g3, g4⟩ := List.getElem?_eq_some_iff.1 e2
    have := hn.getElem_inj_iff.1 (g2.trans g4.symm)
    omega
  have hs := tagsOf_sorted ty l 0
  match h : tagsOf ty l 0 with
  | [] => simp
  | [x] => simp
  | x :: y :: r =>
    exfalso
    rw [h] at hinj hs
    have := hinj x (by simp) y (by simp)
    have := (List.pairwise_cons.1 hs).1 y (by simp)
    omega

mutual
theorem reqs_mild : ∀ t : Ty, WF t → Mild t → Reqs Env.mild.A t
  | .bv _ _, _, _ => trivial
  | .bit _, _, _ => trivial
  | .enum c ms, hw, hc => by
    intro a ha hne
    obtain ⟨a', ha', _, hm, hnd, hwd⟩ := enum_request (ms := ms) hw
    rw [ha] at ha'; cases ha'
    have hdv : dictValues a.asm [] ≠ [] := by
      obtain ⟨n, hn, _⟩ := hc
      intro h; have := (hm n).2 hn; rw [h] at this; simp at this
    refine ⟨hdv, hnd, ?_, ?_, fun _ => rfl⟩
    · intro x hx
      have h1 := le_foldl_max hx
      have h2 := lt_two_pow_bitLength (listMax (dictValues a.asm []))
      unfold listMax at *; omega
    · intro _
      obtain ⟨n, hn, hn0⟩ := hc
      have : n ≤ listMax (dictValues a.asm []) := le_foldl_max ((hm n).2 hn)
      exact bitLength_pos (by omega)
  | .prod _ fs, hw, hc => reqsAll_mild fs hw.2 hc
  | .sum _ fs, hw, hc => by
    obtain ⟨hc1, hc2, hc3⟩ := hc
    refine ⟨reqsAll_mild fs hw.2.2 hc3, ?_, ?_⟩
    · intro hne
      have hn : fs.toList.length ≠ 0 := by omega
      refine ⟨by intro h; have := congrArg List.length h; simp at this; exact hne this, List.nodup_range, ?_, ?_, ?_⟩
      · intro x hx; rw [List.mem_range] at hx; exact lt_tagBits hx
      · intro h; simp at h; omega
      · intro _
        rw [← lastOp_run_max (isRun_range hn)]
        have := range'_last 0 (fs.toList.length - 1)
        rw [show fs.toList.length - 1 + 1 = fs.toList.length by omega, ← List.range_eq_range'] at this
        rw [this]; simp [tagBits]
    · intro ty hty
      have hle := tagsOf_single (ty := ty) hc2
      have hne : tagsOf ty fs.toList 0 ≠ [] := by
        obtain ⟨x, hx, hx'⟩ := List.mem_map.1 hty
        obtain ⟨j, hj⟩ := List.getElem?_of_mem hx
        have : (0 + j) ∈ tagsOf ty fs.toList 0 := by
          rw [mem_tagsOf]
          exact ⟨j, x.1, rfl, by rw [hj, ← hx']⟩
        intro h; rw [h] at this; simp at this
      refine ⟨hne, tagsOf_nodup _ _, ?_, ?_, ?_⟩
      · intro x hx; exact lt_tagBits (tagsOf_lt hx)
      · intro _; unfold tagBits; exact bitLength_pos (by omega)
      · intro h; omega
theorem reqsAll_mild : ∀ fs : Fields, WFs fs → Milds fs → ReqsAll Env.mild.A fs
  | .nil, _, _ => trivial
  | .cons _ t fs, hw, h => ⟨reqs_mild t hw.1 h.1, reqsAll_mild fs hw.2 h.2⟩
end

mutual
theorem mild_of_checkable : ∀ t : Ty, Checkable t → Mild t
  | .bv _ _, _ => trivial
  | .bit _, _ => trivial
  | .enum _ _, h => h.1
  | .prod _ fs, h => milds_of_checkables fs h
  | .sum _ fs, h => ⟨h.1, h.2.1, milds_of_checkables fs h.2.2⟩
theorem milds_of_checkables : ∀ fs : Fields, Checkables fs → Milds fs
  | .nil, _ => trivial
  | .cons _ t fs, h => ⟨mild_of_checkable t h.1, milds_of_checkables fs h.2⟩
end

theorem multi_tags {ty : Ty} {l : List (Key × Ty)} (h : (l.map (·.2)).Nodup) : isMultiB (sortNat (tagsOf ty l 0)) = false := by
  have h1 := tagsOf_single (ty := ty) h
  have : (sortNat (tagsOf ty l 0)).length < 3 := by rw [sortNat_length]; omega
  simp [isMultiB, this]

mutual
theorem reqs_checkable : ∀ t : Ty, WF t → Checkable t → Reqs Env.checkable.A t
  | .bv _ _, _, _ => trivial
  | .bit _, _, _ => trivial
  | .enum c ms, hw, hc => by
    intro a ha hne
    refine ⟨reqs_mild (.enum c ms) hw hc.1 a ha hne, ?_⟩
    obtain ⟨a', ha', _, hm, hnd, hwd⟩ := enum_request (ms := ms) hw
    rw [ha] at ha'; cases ha'
    have hdv : dictValues a.asm [] ≠ [] := by
      obtain ⟨n, hn, _⟩ := hc.1
      intro h; have := (hm n).2 hn; rw [h] at this; simp at this
    apply isMultiB_false hdv hnd
    rw [severalRanges_congr (b := (enumCodes ms).dedup) _ hnd (List.nodup_dedup _)]
    · exact hc.2
    · intro x; rw [hm, List.mem_dedup]
  | .prod _ fs, hw, hc => reqsAll_checkable fs hw.2 hc
  | .sum cl fs, hw, hc => by
    obtain ⟨_, q1, q2⟩ := reqs_mild (.sum cl fs) hw (mild_of_checkable (.sum cl fs) hc)
    refine ⟨reqsAll_checkable fs hw.2.2 hc.2.2, fun hne => ⟨q1 hne, ?_⟩, fun ty hty => ⟨q2 ty hty, multi_tags hc.2.1⟩⟩
    have hn : fs.toList.length ≠ 0 := by have := hc.1; omega
    rw [(isRun_range hn).sort]; simp [isMultiB, (isRun_range hn).isRangeB]
theorem reqsAll_checkable : ∀ fs : Fields, WFs fs → Checkables fs → ReqsAll Env.checkable.A fs
  | .nil, _, _ => trivial
  | .cons _ t fs, hw, h => ⟨reqs_checkable t hw.1 h.1, reqsAll_checkable fs hw.2 h.2⟩
end

/-! ### assemblers obtained after a history -/

theorem build_any (hist : List Ty) (t : Ty) (hw : WF t) {o : AsmObj} {st : St}
    (h : t.build (runHistory hist) = (.ok o, st)) : Good False False t o := by
  obtain ⟨o', ho, hg⟩ := (build_inv Env.any t _ (reqs_any t) (runHistory_inv Env.any hist (fun t _ => reqs_any t))).2 hw
  rw [h] at ho; simp only [Except.ok.injEq] at ho; subst ho; exact hg

theorem build_ok (hist : List Ty) (t : Ty) (hw : WF t) : ∃ o st, t.build (runHistory hist) = (.ok o, st) := by
  obtain ⟨o, ho, _⟩ := (build_inv Env.any t _ (reqs_any t) (runHistory_inv Env.any hist (fun t _ => reqs_any t))).2 hw
  exact ⟨o, _, Prod.ext ho rfl⟩

theorem build_tagSafe (hist : List Ty) (t : Ty) (hw : WF t) (hs : ∀ t' ∈ t :: hist, TagSafe t') {o : AsmObj} {st : St}
    (h : t.build (runHistory hist) = (.ok o, st)) : Good True False t o := by
  obtain ⟨o', ho, hg⟩ := (build_inv Env.tagSafe t _ (reqs_tagSafe t (hs t (by simp)))
    (runHistory_inv Env.tagSafe hist (fun t' ht => reqs_tagSafe t' (hs t' (by simp [ht]))))).2 hw
  rw [h] at ho; simp only [Except.ok.injEq] at ho; subst ho; exact hg

theorem build_checkable (hist : List Ty) (t : Ty) (hw : ∀ t' ∈ t :: hist, WF t') (hs : ∀ t' ∈ t :: hist, Checkable t')
    {o : AsmObj} {st : St} (h : t.build (runHistory hist) = (.ok o, st)) : Good True True t o := by
  obtain ⟨o', ho, hg⟩ := (build_inv Env.checkable t _ (reqs_checkable t (hw t (by simp)) (hs t (by simp)))
    (runHistory_inv Env.checkable hist
      (fun t' ht => reqs_checkable t' (hw t' (by simp [ht])) (hs t' (by simp [ht]))))).2 (hw t (by simp))
  rw [h] at ho; simp only [Except.ok.injEq] at ho; subst ho; exact hg

end Peak
