import Verif.Lemmas.AsmEnv
import Verif.Spec.AsmWidths
/-! Histories in which every sparse one-hot set of codes is used at one width only. -/

namespace Peak
open Peak.Spec

def Env.oneWidth (W : List Nat → Nat) : Env where
  A ops w := (∀ x ∈ ops, x < 2 ^ w) ∧ (oneHotZero (sortNat ops) = true → w = W (sortNat ops))
  P o w' := oneHotZero o = true → w' = W o
  acc := True
  ex := False
  hP ops w h _ ho := h.2 ho
  hR ops w r _ hr _ ho := by rw [hr.not_oneHotZero] at ho; simp at ho
  hacc _ ops w w' hA hP b hb hm := by
    apply pureV_accepts (mem_sortNat.2 hm)
    · intro x hx; rw [hb]; exact hA.1 x (mem_sortNat.1 hx)
    · intro ho
      rw [hP ho, ← hA.2 ho, hb]; exact Nat.le_refl _
  hex h := h.elim

theorem sortNat_nodup {l : List Nat} (h : l.Nodup) : (sortNat l).Nodup :=
  (sortNat_sorted h).imp (fun h => Nat.ne_of_lt h)

theorem sort_sparse {ops : List Nat} (hn : ops.Nodup) (h : oneHotZero (sortNat ops) = true) :
    SparseOneHotWithZero (sortNat ops) := by
  have h1 := oneHotZero_sparse hn h
  have hp : ∀ x, x ∈ sortNat ops ↔ x ∈ ops := fun x => mem_sortNat
  refine ⟨by rw [sortNat_length]; exact h1.1, mem_sortNat.2 h1.2.1, ?_, fun x hx => h1.2.2.2 x (mem_sortNat.1 hx)⟩
  rw [perm_runCount hp (sortNat_nodup hn) hn]; exact h1.2.2.1

/-- `W` gives the width of every sparse one-hot set of `t`. -/
def WidthsIn (W : List Nat → Nat) (t : Ty) : Prop :=
  ∀ S w, S.Nodup → SparseOneHotWithZero S → CodeSet t S w → w = W S

def WidthsIns (W : List Nat → Nat) (fs : Fields) : Prop :=
  ∀ S w, S.Nodup → SparseOneHotWithZero S → CodeSets fs S w → w = W S

mutual
theorem reqs_oneWidth (W : List Nat → Nat) : ∀ t : Ty, WF t → WidthsIn W t → Reqs (Env.oneWidth W).A t
  | .bv _ _, _, _ => trivial
  | .bit _, _, _ => trivial
  | .enum _ ms, hw, h => by
    intro a ha hne
    obtain ⟨a', ha', _, hm, hnd, hwd⟩ := enum_request (ms := ms) hw
    rw [ha] at ha'; cases ha'
    refine ⟨?_, ?_⟩
    · intro x hx
      have h1 := le_foldl_max hx
      have h2 := lt_two_pow_bitLength (listMax (dictValues a.asm []))
      unfold listMax at *; omega
    · intro ho
      apply h _ _ (sortNat_nodup hnd) (sort_sparse hnd ho)
      rw [CodeSet]
      refine ⟨fun x => by rw [mem_sortNat, hm], ?_⟩
      exact hwd
  | .prod _ fs, hw, h => reqsAll_oneWidth W fs hw.2 (fun S w hn hs hc => h S w hn hs (by rw [CodeSet]; exact hc))
  | .sum _ fs, hw, h => by
    refine ⟨reqsAll_oneWidth W fs hw.2.2 (fun S w hn hs hc => h S w hn hs (by rw [CodeSet]; exact Or.inl hc)), ?_, ?_⟩
    · intro hne
      have hn : fs.toList.length ≠ 0 := fun h => hne (List.length_eq_zero_iff.1 h)
      refine ⟨?_, ?_⟩
      · intro x hx; rw [List.mem_range] at hx; exact lt_tagBits hx
      · intro ho; rw [(isRun_range hn).sort, (isRun_range hn).not_oneHotZero] at ho; simp at ho
    · intro ty _
      refine ⟨?_, ?_⟩
      · intro x hx; exact lt_tagBits (tagsOf_lt hx)
      · intro ho
        apply h _ _ (sortNat_nodup (tagsOf_nodup _ _)) (sort_sparse (tagsOf_nodup _ _) ho)
        rw [CodeSet]
        exact Or.inr ⟨ty, fun x => mem_sortNat, rfl⟩
theorem reqsAll_oneWidth (W : List Nat → Nat) : ∀ fs : Fields, WFs fs → WidthsIns W fs → ReqsAll (Env.oneWidth W).A fs
  | .nil, _, _ => trivial
  | .cons _ t fs, hw, h =>
    ⟨reqs_oneWidth W t hw.1 (fun S w hn hs hc => h S w hn hs (by rw [CodeSets]; exact Or.inl hc)),
      reqsAll_oneWidth W fs hw.2 (fun S w hn hs hc => h S w hn hs (by rw [CodeSets]; exact Or.inr hc))⟩
end

open Classical in
theorem exists_widths {ts : List Ty} (h : OneWidth ts) : ∃ W, ∀ t ∈ ts, WidthsIn W t := by
  refine ⟨fun S => if he : ∃ w, ∃ t ∈ ts, CodeSet t S w then he.choose else 0, ?_⟩
  intro t ht S w hn hs hc
  have he : ∃ w, ∃ t ∈ ts, CodeSet t S w := ⟨w, t, ht, hc⟩
  simp only [dif_pos he]
  obtain ⟨t', ht', hc'⟩ := he.choose_spec
  exact h t ht t' ht' S _ _ hn hs hc hc'

theorem build_oneWidth (hist : List Ty) (t : Ty) (hw : ∀ t' ∈ t :: hist, WF t') (hs : OneWidth (t :: hist)) {o : AsmObj}
    {st : St} (h : t.build (runHistory hist) = (.ok o, st)) : Good True False t o := by
  obtain ⟨W, hW⟩ := exists_widths hs
  have hr : ∀ t' ∈ t :: hist, Reqs (Env.oneWidth W).A t' := fun t' ht => reqs_oneWidth W t' (hw t' ht) (hW t' ht)
  obtain ⟨o', ho, hg⟩ := (build_inv (Env.oneWidth W) t _ (hr t (by simp))
    (runHistory_inv (Env.oneWidth W) hist (fun t' ht => hr t' (by simp [ht])))).2 (hw t (by simp))
  rw [h] at ho; simp only [Except.ok.injEq] at ho; subst ho; exact hg

end Peak
