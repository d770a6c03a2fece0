import Verif.Lemmas.Validator2
import Verif.Spec.Validator
open Peak.Spec

namespace Peak

/-- Every cached validator is the pure one for some width related to its key by `P`. -/
def CInv (P : List Nat → Nat → Prop) (c : VCache) : Prop :=
  ∀ e ∈ c, ∃ w', e.2 = pureV e.1 w' ∧ P e.1 w'

theorem CInv.mono {P Q : List Nat → Nat → Prop} {c : VCache} (h : CInv P c)
    (hPQ : ∀ o w, P o w → Q o w) : CInv Q c := fun e he =>
  let ⟨w', h1, h2⟩ := h e he; ⟨w', h1, hPQ _ _ h2⟩

/-- Effect of one generation on a cache satisfying the invariant. -/
theorem genIsValid_inv {P : List Nat → Nat → Prop} {c : VCache} (hc : CInv P c) {ops : List Nat}
    {w : Nat} (hne : ops ≠ []) (hP : P (sortNat ops) w) (hR : ∀ r, IsRun r → (∀ x ∈ r, x ∈ ops) → P r w) :
    ∃ v c', genIsValid ops w c = (.ok v, c') ∧ CInv P c' ∧
      ∃ w', v = pureV (sortNat ops) w' ∧ P (sortNat ops) w' := by
  cases h : c.lookup (sortNat ops) with
  | some v =>
    refine ⟨v, c, genIsValid_hit h, hc, ?_⟩
    exact hc _ (mem_of_lookup h)
  | none =>
    obtain ⟨new, h1, h2⟩ := genIsValid_miss w hne h
    refine ⟨_, _, h1, ?_, w, rfl, hP⟩
    intro e he
    rcases List.mem_append.1 he with he | he
    · exact hc e he
    · obtain ⟨h3, h4⟩ := h2 e he
      refine ⟨w, h4, ?_⟩
      rcases h3 with h3 | h3
      · exact hR _ h3.1 h3.2
      · rw [h3]; exact hP

theorem genIsValid_nil (w : Nat) (c : VCache) (h : c.lookup [] = none) :
    genIsValid [] w c = (.error .indexError, c) := by
  simp [genIsValid, genRec, genBody, sortNat, h]

/-! ### runs of a set of codes -/

theorem insertNat_sorted {x : Nat} {l : List Nat} (h : l.Pairwise (· < ·)) (hx : x ∉ l) :
    (insertNat x l).Pairwise (· < ·) := by
  induction l with
  | nil => simp [insertNat]
  | cons y l ih =>
    rw [List.pairwise_cons] at h
    simp only [insertNat]
    simp only [List.mem_cons, not_or] at hx
    split
    · rw [List.pairwise_cons]
      refine ⟨?_, List.pairwise_cons.2 h⟩
      intro z hz
      rcases List.mem_cons.1 hz with rfl | hz
      · omega
      · have := h.1 z hz; omega
    · rw [List.pairwise_cons]
      refine ⟨?_, ih h.2 hx.2⟩
      intro z hz
      rcases mem_insertNat.1 hz with rfl | hz
      · omega
      · exact h.1 z hz

theorem sortNat_sorted {l : List Nat} (h : l.Nodup) : (sortNat l).Pairwise (· < ·) := by
  induction l with
  | nil => simp [sortNat]
  | cons x l ih =>
    rw [List.nodup_cons] at h
    exact insertNat_sorted (ih h.2) (by rw [mem_sortNat]; exact h.1)

theorem splitRanges_length {m : Nat} {rest : List Nat} (h : (m :: rest).Pairwise (· < ·)) (lb : Nat) :
    (splitRanges lb m rest).length = runCount (m :: rest) := by
  induction rest generalizing m lb with
  | nil => simp [splitRanges, runCount]
  | cons j rest ih =>
    rw [List.pairwise_cons] at h
    have hmj := h.1 j (by simp)
    have hfil : ∀ l : List Nat, (∀ x ∈ l, x ∈ j :: rest) →
        l.filter (fun x => decide (x + 1 ∉ m :: j :: rest)) = l.filter (fun x => decide (x + 1 ∉ j :: rest)) := by
      intro l hl
      apply List.filter_congr
      intro x hx
      have := h.1 x (hl x hx)
      have : x + 1 ≠ m := by omega
      simp [this]
    have hm : m + 1 ∈ m :: j :: rest ↔ j = m + 1 := by
      constructor
      · intro hh
        simp only [List.mem_cons] at hh
        rcases hh with hh | hh | hh
        · omega
        · exact hh.symm
        · have := (List.pairwise_cons.1 h.2).1 _ hh; omega
      · rintro rfl; simp
    unfold runCount
    rw [List.filter_cons]
    rw [hfil (j :: rest) (fun _ h => h)]
    simp only [splitRanges]
    by_cases hj : j = m + 1
    · have hd : decide (m + 1 ∉ m :: j :: rest) = false := by simp [hj]
      rw [if_pos hj, hd]
      rw [ih h.2 lb]; rfl
    · have hd : decide (m + 1 ∉ m :: j :: rest) = true := by
        simp only [decide_eq_true_eq, hm]; exact hj
      rw [if_neg hj, hd]
      simp only [List.length_cons, if_true]
      rw [ih h.2 j]; rfl

theorem perm_runCount {a b : List Nat} (h : ∀ x, x ∈ a ↔ x ∈ b) (ha : a.Nodup) (hb : b.Nodup) :
    runCount a = runCount b := by
  unfold runCount
  apply List.Perm.length_eq
  rw [List.perm_ext_iff_of_nodup (ha.sublist List.filter_sublist) (hb.sublist List.filter_sublist)]
  intro x; simp [h]

theorem numRanges_sort {ops : List Nat} (hne : ops ≠ []) (hn : ops.Nodup) :
    numRanges (sortNat ops) = runCount ops := by
  have hs := sortNat_sorted hn
  have hsn : (sortNat ops).Nodup := hs.imp (fun h => Nat.ne_of_lt h)
  have hne' : sortNat ops ≠ [] := by
    intro h; have := sortNat_length ops; rw [h] at this
    exact hne (List.length_eq_zero_iff.1 this.symm)
  have hr : runCount (sortNat ops) = runCount ops := perm_runCount (fun x => mem_sortNat) hsn hn
  rw [← hr]
  generalize sortNat ops = S at *
  cases S with
  | nil => exact absurd rfl hne'
  | cons m rest => exact splitRanges_length hs m

theorem isRangeB_of_one_run {ops : List Nat} (hne : ops ≠ []) (hn : ops.Nodup)
    (h : runCount ops = 1) : isRangeB (sortNat ops) = true := by
  rw [← numRanges_sort hne hn] at h
  have hne' : sortNat ops ≠ [] := by
    intro h; have := sortNat_length ops; rw [h] at this
    exact hne (List.length_eq_zero_iff.1 this.symm)
  generalize sortNat ops = S at *
  cases S with
  | nil => exact absurd rfl hne'
  | cons m rest =>
    simp only [numRanges, List.headD_cons, List.tail_cons] at h
    obtain ⟨r, hr⟩ := List.length_eq_one_iff.1 h
    have hf := splitRanges_flatten rest m m (Nat.le_refl _)
    rw [hr] at hf
    have hrun := splitRanges_runs rest m m (Nat.le_refl _) r (by rw [hr]; simp)
    simp only [List.flatten_cons, List.flatten_nil, List.append_nil] at hf
    have : m :: rest = r := by rw [hf]; simp [pyRange]
    rw [this]; exact hrun.isRangeB

theorem and_pred_two_pow (i : Nat) : 2 ^ i &&& (2 ^ i - 1) = 0 := by
  rw [Nat.and_two_pow_sub_one_eq_mod]; simp

theorem isOneHotB_sort {ops : List Nat} (h : ∀ x ∈ ops, x = 0 ∨ ∃ i, x = 2 ^ i) :
    isOneHotB (sortNat ops) = true := by
  unfold isOneHotB
  rw [List.all_eq_true]
  intro x hx
  rcases h x (mem_sortNat.1 hx) with rfl | ⟨i, rfl⟩
  · simp
  · simp

end Peak
