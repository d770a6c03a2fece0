import Verif.Lemmas.Accepts
/-!
# C05: exactly what `is_valid` accepts, and for which types it is exact
-/

namespace Peak
open Peak.Spec

/-- C05, part: in a process where every enum has a code other than 0, and every union at least two options, with distinct types,
`is_valid` accepts exactly the patterns spelt by accepted parts, where an enum whose codes form several ranges accepts everything.
Missing: the remaining types; there the answer depends on what was built before (`C05_violated_by_history`). -/
theorem C05_accepts_partial (hist : List Ty) (t : Ty) (hw : ∀ t' ∈ t :: hist, WF t') (hm : ∀ t' ∈ t :: hist, Mild t') :
    ∃ o, assemblerAfter hist t = .ok o ∧ ∀ b : BV, b.size = o.width → (o.isValid b = true ↔ Accepts t b.val) := by
  have hwt := hw t (by simp)
  obtain ⟨o, ho⟩ := assemblerAfter_ok hist t hwt
  have hh : ∀ t' ∈ hist, WF t' ∧ Mild t' := fun t' h => ⟨hw t' (by simp [h]), hm t' (by simp [h])⟩
  have hI := runHistory_inv Env.mild hist (fun t' h => reqs_mild t' (hh t' h).1 (hh t' h).2)
  refine ⟨o, ho, fun b hb => ?_⟩
  rw [(build_any hist t hwt (build_of_after ho)).width] at hb
  exact (Acc.build_ok t _ hwt (hm t (by simp)) hI (Acc.history_ok hist hh)).2 o ho b hb

/-- C05 holds for exactly the types without an enum whose codes form several ranges: in such a process, `is_valid` accepts just the
encodings of values if and only if the type is `Checkable`. -/
theorem C05_exact_iff (hist : List Ty) (t : Ty) (hw : ∀ t' ∈ t :: hist, WF t') (hm : ∀ t' ∈ t :: hist, Mild t') :
    ∃ o, assemblerAfter hist t = .ok o ∧
      ((∀ b : BV, b.size = o.width → (o.isValid b = true ↔ ∃ v, Reads t b.val v)) ↔ Checkable t) := by
  have hwt := hw t (by simp)
  obtain ⟨o, ho, h⟩ := C05_accepts_partial hist t hw hm
  have hwd := (build_any hist t hwt (build_of_after ho)).width
  refine ⟨o, ho, ?_, ?_⟩
  · intro hx
    refine Classical.byContradiction fun hc => ?_
    obtain ⟨n, h1, h2⟩ := Acc.some_wrong t (hm t (by simp)) hc
    have hb : (BV.ofNat (width t) n).val = n % 2 ^ width t := rfl
    have hacc := (h (BV.ofNat (width t) n) hwd.symm).2 (by rw [hb]; exact (Acc.accepts_mod t _ _ (Nat.le_refl _)).2 h1)
    obtain ⟨v, hv⟩ := (hx _ hwd.symm).1 hacc
    rw [hb, reads_mod _ _ _ _ (Nat.le_refl _)] at hv
    exact h2 v hv
  · intro hc b hb
    rw [h b hb]
    exact Acc.accepts_iff_reads t hc b.val

/-- `Op` of examples/fp_pe (sim.py:10-13, 43-48, 70-72): a union of an enum with codes 1 to 5 and one with the codes 0, 2 and 3. -/
def fpOp : Ty := .sum 60 (.cons 0 (.enum 61 [.lit 1, .lit 2, .lit 3, .lit 4, .lit 5]) (.cons 1 (.enum 62 [.lit 0, .lit 2, .lit 3]) .nil))

theorem fpOp_several : SeveralRanges (enumCodes [.lit 0, .lit 2, .lit 3]).dedup := by
  have e : (enumCodes [.lit 0, .lit 2, .lit 3]).dedup = [0, 2, 3] := by decide +kernel
  rw [e]
  refine ⟨by decide, by decide, ?_, by decide⟩
  intro hh
  rcases hh 3 (by decide) with h | ⟨i, hi⟩
  · omega
  · rcases i with _ | i
    · omega
    · rw [Nat.pow_succ] at hi
      omega

theorem fpOp_fits : WF fpOp ∧ Mild fpOp ∧ ¬ Checkable fpOp :=
  ⟨by simp [fpOp, WF, WFs, Fields.toList, autos], ⟨by decide, by decide, ⟨1, by decide +kernel, by decide⟩, ⟨2, by decide +kernel, by decide⟩, trivial⟩,
    fun h => h.2.2.2.1.2 fpOp_several⟩

/-- The code 1 for the second enum is accepted, though it has no member with that code; the code 7 for the first is rejected. -/
example : Accepts fpOp (1 + 2 * 1) ∧ ¬ Accepts fpOp (0 + 2 * 7) ∧ (¬ ∃ v, Reads fpOp (1 + 2 * 1) v) ∧
    ∃ o, assemblerAfter [] fpOp = .ok o ∧ o.isValid (BV.ofNat 4 3) = true ∧ o.isValid (BV.ofNat 4 14) = false := by
  have h1 : Accepts fpOp (1 + 2 * 1) := .inl fpOp_several
  have h2 : ¬ Accepts fpOp (0 + 2 * 7) := by
    rintro (h | h)
    · have e : (enumCodes [.lit 1, .lit 2, .lit 3, .lit 4, .lit 5]).dedup = [1, 2, 3, 4, 5] := by decide +kernel
      rw [e] at h
      exact h.2.1 (by decide +kernel)
    · revert h; decide +kernel
  obtain ⟨o, ho, hx⟩ := C05_accepts_partial [] fpOp (by simpa using fpOp_fits.1) (by simpa using fpOp_fits.2.1)
  have hwd := (build_any [] fpOp fpOp_fits.1 (build_of_after ho)).width
  have hw4 : width fpOp = 4 := by decide +kernel
  refine ⟨h1, h2, ?_, o, ho, (hx (BV.ofNat 4 3) (by rw [hwd, hw4]; rfl)).mpr h1, ?_⟩
  · rintro ⟨v, hv⟩
    cases v with
    | sum k u =>
      have hr : Reads (.enum 62 [.lit 0, .lit 2, .lit 3]) 1 u := hv.2
      have hh := reads_has _ _ u hr
      cases u with
      | enum e =>
        simp only [Ty.Has, List.mem_cons, List.not_mem_nil, or_false] at hh
        simp only [Reads] at hr
        revert hr
        rcases hh with rfl | rfl | rfl <;> decide +kernel
      | _ => simp [Ty.Has] at hh
    | _ => simp [fpOp, Reads] at hv
  · rw [Bool.eq_false_iff]
    exact fun h => h2 ((hx (BV.ofNat 4 14) (by rw [hwd, hw4]; rfl)).mp h)

end Peak
