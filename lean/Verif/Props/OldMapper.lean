import Verif.Lemmas.OldMapper
/-!
# C57: the enumerating mapper `gen_mapping`
-/

namespace Peak.Old

section
variable {T : Type} [DecidableEq T]

theorem rep_fst (peak : List (String × T)) (b : List (Option String × String)) (f : String → Option String)
    (hr : Represents peak b f) (ha : (peak.map (·.1)).Nodup) (e e' : Option String × String) (he : e ∈ b) (he' : e' ∈ b)
    (h : e.2 = e'.2) : e = e' := by
  have h1 := hr.2 e he
  have h2 := hr.2 e' he'
  rw [← h] at h2
  exact Prod.ext (h1.trans h2.symm) h

theorem rep_nodup (peak : List (String × T)) (b : List (Option String × String)) (f : String → Option String)
    (hr : Represents peak b f) (ha : (peak.map (·.1)).Nodup) : b.Nodup :=
  List.Nodup.of_map _ (hr.1.nodup_iff.mpr ha)

end

/-- What is known of a binding that represents a legal assignment of the CoreIR inputs under their names in the search. -/
structure GoodBinding (peak : List (String × OTy)) (core : List (String × Nat)) (b : List (Option String × String)) : Prop where
  fst : ∀ e ∈ b, ∀ e' ∈ b, e.2 = e'.2 → e = e'
  name : ∀ e ∈ b, ∀ v, e.1 = some v → outName v ≠ "0" ∧ ∃ c ∈ core.map (·.1), v = inName c ∧ outName v = c
  pairwise : b.Pairwise (fun e e' => keyOf e = keyOf e' → keyOf e = "0")

theorem goodBinding (peak : List (String × OTy)) (core : List (String × Nat)) (hc : CoreNames core) (ha : (peak.map (·.1)).Nodup)
    (b : List (Option String × String)) (f : String → Option String) (hr : Represents peak b f)
    (hf : IsAssignment peak (coreInputs core) f) : GoodBinding peak core b := by
  have hname : ∀ e ∈ b, ∀ v, e.1 = some v → outName v ≠ "0" ∧ ∃ c ∈ core.map (·.1), v = inName c ∧ outName v = c := by
    intro e he v hv
    have hk : e.2 ∈ peak.map (·.1) := hr.1.subset (List.mem_map_of_mem he)
    obtain ⟨⟨k, t⟩, hkt, hk'⟩ := List.mem_map.mp hk
    have := hf.typed k t v hkt (by have hk2 : k = e.2 := hk'; rw [hk2, ← hr.2 e he, hv])
    rw [coreInputs_eq core hc] at this
    obtain ⟨⟨c, w⟩, hcw, he'⟩ := List.mem_map.mp this
    simp only [Prod.mk.injEq] at he'
    have hcm : c ∈ core.map (·.1) := List.mem_map.mpr ⟨_, hcw, rfl⟩
    have ho : outName v = c := by rw [← he'.1]; exact outName_inName c (fun h => hc.noIn (h ▸ hcm))
    exact ⟨by rw [ho]; rintro rfl; exact hc.noZero hcm, c, hcm, he'.1.symm, ho⟩
  refine ⟨fun e he e' he' => rep_fst peak b f hr ha e e' he he', hname, ?_⟩
  refine (rep_nodup peak b f hr ha).pairwise_of_forall_ne ?_
  intro e he e' he' hne hkey
  by_contra hz
  cases h1 : e.1 with
  | none => exact hz (by unfold keyOf; rw [h1])
  | some v =>
    cases h2 : e'.1 with
    | none => exact hz (by rw [hkey]; unfold keyOf; rw [h2])
    | some v' =>
      obtain ⟨_, c, _, hv, ho⟩ := hname e he v h1
      obtain ⟨_, c', _, hv', ho'⟩ := hname e' he' v' h2
      have hk : outName v = outName v' := by unfold keyOf at hkey; rw [h1, h2] at hkey; exact hkey
      have hcc : c = c' := by rw [← ho, ← ho', hk]
      have hvv : v = v' := by rw [hv, hv', hcc]
      have hm : ∀ e ∈ b, e.2 ∈ peak.map (·.1) := fun e he => hr.1.subset (List.mem_map_of_mem he)
      obtain ⟨⟨k, t⟩, hkt, hk'⟩ := List.mem_map.mp (hm e he)
      have hfe : f e.2 = some v := (hr.2 e he).symm.trans h1
      have hfe' : f e'.2 = some v := by rw [hvv]; exact (hr.2 e' he').symm.trans h2
      obtain ⟨a, _, _, hu⟩ := hf.once v t (hf.typed k t v hkt (by have hk2 : k = e.2 := hk'; rw [hk2]; exact hfe))
      exact hne (rep_fst peak b f hr ha e e' he he' ((hu _ (hm e he) hfe).trans (hu _ (hm e' he') hfe').symm))

/-- The inputs of the call are those the mapping describes. -/
theorem env_eq (peak : List (String × OTy)) (core : List (String × Nat)) (b : List (Option String × String))
    (hg : GoodBinding peak core b) (ρ : String → Nat) (k : String) :
    bindingEnv b (fun n => ρ (outName n)) k = mappedInput (oldInputMap b) ρ k := by
  unfold bindingEnv mappedInput
  cases h2 : (oldInputMap b).find? (fun e => e.2 == k && e.1 != "0") with
  | some e =>
    have hm := List.mem_of_find?_eq_some h2
    have hp := List.find?_some h2
    simp only [Bool.and_eq_true, beq_iff_eq, bne_iff_ne] at hp
    obtain ⟨e', he', hk', hk2⟩ := (mem_inputMap b hg.pairwise e.1 e.2 hp.2).mp hm
    cases hv : e'.1 with
    | none => exact absurd (by unfold keyOf at hk'; rw [hv] at hk'; exact hk'.symm) hp.2
    | some v =>
      have hfind : b.find? (fun e => e.2 == k) = some e' := by
        cases hf : b.find? (fun e => e.2 == k) with
        | none =>
          rw [List.find?_eq_none] at hf
          have := hf e' he'
          simp [hk2, hp.1] at this
        | some x =>
          have hx := List.find?_some hf
          simp only [beq_iff_eq] at hx
          rw [hg.fst x (List.mem_of_find?_eq_some hf) e' he' (by rw [hx, hk2, hp.1])]
      rw [hfind]
      obtain ⟨o, k''⟩ := e'
      simp only at hv
      subst hv
      simp only
      congr 1
  | none =>
    rw [List.find?_eq_none] at h2
    cases hf : b.find? (fun e => e.2 == k) with
    | none => rfl
    | some x =>
      obtain ⟨o, k'⟩ := x
      cases o with
      | none => rfl
      | some v =>
        exfalso
        have hx := List.find?_some hf
        simp only [beq_iff_eq] at hx
        have hmem := List.mem_of_find?_eq_some hf
        obtain ⟨hz, _⟩ := hg.name _ hmem v rfl
        have := h2 (outName v, k') ((mem_inputMap b hg.pairwise (outName v) k' hz).mpr ⟨_, hmem, rfl, rfl⟩)
        simp [hx, hz] at this

section
variable {St BI SI : Type}

/-- A mapping found by one call. -/
def Found (pb : OldPb St BI SI) (unsat : ((String → Nat) → Prop) → Bool) (bvL : List BI) (c : Nat × SI × List (Option String × String))
    (st : (String → Nat) → St) (idx : Nat) (m : OldMap BI) : Prop :=
  (pb.outSorts c.2.1)[idx]? = some (some pb.coreSort) ∧
  unsat (fun ρ => (pb.call (st ρ) c.2.1 (bindingEnv c.2.2 ρ)).2[idx]? ≠ some (pb.coreFn ρ)) = true ∧
  pb.peakOutputs[idx]? = some m.output ∧ bvL[c.1]? = some m.instruction ∧ m.inputMap = oldInputMap c.2.2

theorem mem_oldOuts (pb : OldPb St BI SI) (unsat : ((String → Nat) → Prop) → Bool) (bvL : List BI)
    (c : Nat × SI × List (Option String × String)) (st : (String → Nat) → St) (l : List (Nat × Option OTy))
    (hl : ∀ e ∈ l, (pb.outSorts c.2.1)[e.1]? = some e.2) (n : Nat) (m : OldMap BI)
    (h : m ∈ (oldOuts pb unsat bvL c.1 c.2.1 c.2.2 st l n).1) : ∃ idx, Found pb unsat bvL c st idx m := by
  induction l generalizing n with
  | nil => simp [oldOuts] at h
  | cons e l ih =>
    obtain ⟨idx, s⟩ := e
    have ih := ih (fun e he => hl e (by simp [he]))
    unfold oldOuts at h
    split at h
    · next hc =>
      cases ho : pb.peakOutputs[idx]? with
      | none => rw [ho] at h; simp at h
      | some o =>
        cases hi : bvL[c.1]? with
        | none => rw [ho, hi] at h; simp at h
        | some i =>
          have hfound : Found pb unsat bvL c st idx ⟨i, o, oldInputMap c.2.2⟩ := by
            have := hl (idx, s) (by simp)
            simp only at this
            exact ⟨by rw [this, hc.1], hc.2, ho, hi, rfl⟩
          rw [ho, hi] at h
          simp only at h
          split at h
          · simp only [List.mem_singleton] at h
            subst h
            exact ⟨idx, hfound⟩
          · simp only [List.mem_cons] at h
            rcases h with rfl | h
            · exact ⟨idx, hfound⟩
            · exact ih _ h
    · exact ih _ h

theorem sorts_idx (pb : OldPb St BI SI) (i : SI) (e : Nat × Option OTy)
    (h : e ∈ (pb.outSorts i).zipIdx.map (fun e => (e.2, e.1))) : (pb.outSorts i)[e.1]? = some e.2 := by
  obtain ⟨⟨s, k⟩, hk, rfl⟩ := List.mem_map.mp h
  exact List.mem_zipIdx_iff_getElem?.mp hk

theorem mem_oldCalls (pb : OldPb St BI SI) (unsat : ((String → Nat) → Prop) → Bool) (bvL : List BI)
    (cs : List (Nat × SI × List (Option String × String))) (st : (String → Nat) → St) (n : Nat) (m : OldMap BI)
    (h : m ∈ (oldCalls pb unsat bvL cs st n).1) : ∃ c ∈ cs, ∃ st' idx, Found pb unsat bvL c st' idx m := by
  induction cs generalizing st n with
  | nil => simp [oldCalls] at h
  | cons c cs ih =>
    obtain ⟨ii, i, b⟩ := c
    unfold oldCalls at h
    simp only at h
    split at h
    · obtain ⟨idx, hf⟩ := mem_oldOuts pb unsat bvL (ii, i, b) st _ (sorts_idx pb i) n m h
      exact ⟨(ii, i, b), by simp, st, idx, hf⟩
    · rcases List.mem_append.mp h with h | h
      · obtain ⟨idx, hf⟩ := mem_oldOuts pb unsat bvL (ii, i, b) st _ (sorts_idx pb i) n m h
        exact ⟨(ii, i, b), by simp, st, idx, hf⟩
      · obtain ⟨c, hc, r⟩ := ih _ _ h
        exact ⟨c, by simp [hc], r⟩

/-- The number of mappings yielded and the end of a loop that began with `n` mappings still wanted; `why` is the reason of an
exception. -/
def CountOK (n : Nat) (why : Prop) (r : List (OldMap BI) × OldEnd) : Prop :=
  match r.2 with
  | .inl n' => r.1.length + n' = n ∧ 1 ≤ n'
  | .inr none => r.1.length = n
  | .inr (some e) => r.1.length < n ∧ e = .indexError ∧ why

theorem CountOK.mono {n : Nat} {why why' : Prop} {r : List (OldMap BI) × OldEnd} (h : CountOK n why r) (hw : why → why') :
    CountOK n why' r := by
  obtain ⟨ys, n' | _ | e⟩ := r
  · exact h
  · exact h
  · exact ⟨h.1, h.2.1, hw h.2.2⟩

theorem CountOK.append {n n' : Nat} {why : Prop} {r : List (OldMap BI) × OldEnd} (zs : List (OldMap BI)) (hz : zs.length + n' = n)
    (h : CountOK n' why r) : CountOK n why (zs ++ r.1, r.2) := by
  obtain ⟨ys, n'' | _ | e⟩ := r
  · simp only [CountOK, List.length_append] at h ⊢; omega
  · simp only [CountOK, List.length_append] at h ⊢; omega
  · simp only [CountOK, List.length_append] at h ⊢; exact ⟨by omega, h.2⟩

/-- How the count of mappings still wanted goes down. -/
theorem oldOuts_count (pb : OldPb St BI SI) (unsat : ((String → Nat) → Prop) → Bool) (bvL : List BI) (ii : Nat) (i : SI)
    (b : List (Option String × String)) (st : (String → Nat) → St) (l : List (Nat × Option OTy)) (n : Nat) (hn : 1 ≤ n) :
    CountOK n ((∃ x ∈ l, pb.peakOutputs[x.1]? = none) ∨ bvL[ii]? = none) (oldOuts pb unsat bvL ii i b st l n) := by
  induction l generalizing n with
  | nil => simp [oldOuts, CountOK]; exact hn
  | cons e l ih =>
    obtain ⟨idx, s⟩ := e
    have hw : ((∃ x ∈ l, pb.peakOutputs[x.1]? = none) ∨ bvL[ii]? = none) →
        ((∃ x ∈ (idx, s) :: l, pb.peakOutputs[x.1]? = none) ∨ bvL[ii]? = none) := by
      rintro (⟨x, hx, h⟩ | h)
      · exact .inl ⟨x, by simp [hx], h⟩
      · exact .inr h
    unfold oldOuts
    split
    · cases ho : pb.peakOutputs[idx]? with
      | none => exact ⟨hn, rfl, .inl ⟨(idx, s), by simp, ho⟩⟩
      | some o =>
        cases hi : bvL[ii]? with
        | none => exact ⟨hn, rfl, .inr rfl⟩
        | some x =>
          simp only []
          split
          · show (1 : Nat) = n
            omega
          · next hn1 =>
            have h := (ih (n - 1) (by omega)).mono hw
            rw [hi] at h
            exact CountOK.append (n' := n - 1) [⟨x, o, oldInputMap b⟩] (by simp only [List.length_singleton]; omega) h
    · exact (ih n hn).mono hw

theorem oldCalls_count (pb : OldPb St BI SI) (unsat : ((String → Nat) → Prop) → Bool) (bvL : List BI)
    (cs : List (Nat × SI × List (Option String × String))) (st : (String → Nat) → St) (n : Nat) (hn : 1 ≤ n) :
    CountOK n (∃ c ∈ cs, (∃ idx : Nat, (pb.outSorts c.2.1)[idx]? ≠ none ∧ pb.peakOutputs[idx]? = none) ∨ bvL[c.1]? = none)
      (oldCalls pb unsat bvL cs st n) := by
  induction cs generalizing st n with
  | nil => simp [oldCalls, CountOK]; exact hn
  | cons c cs ih =>
    obtain ⟨ii, i, b⟩ := c
    unfold oldCalls
    have h1 := oldOuts_count pb unsat bvL ii i b st ((pb.outSorts i).zipIdx.map (fun e => (e.2, e.1))) n hn
    rcases hr : oldOuts pb unsat bvL ii i b st ((pb.outSorts i).zipIdx.map (fun e => (e.2, e.1))) n with ⟨ys, n' | o⟩
    · rw [hr] at h1
      simp only [CountOK] at h1
      rw [hr]
      refine CountOK.append ys h1.1 ((ih (fun ρ => (pb.call (st ρ) i (bindingEnv b ρ)).1) n' h1.2).mono ?_)
      rintro ⟨c, hc, h⟩
      exact ⟨c, by simp [hc], h⟩
    · rw [hr] at h1
      rw [hr]
      refine h1.mono ?_
      intro h
      refine ⟨(ii, i, b), by simp, ?_⟩
      rcases h with ⟨x, hx, h⟩ | h
      · exact .inl ⟨x.1, by rw [sorts_idx pb i x hx]; simp, h⟩
      · exact .inr h

/-- A loop that goes on has yielded everything it found. -/
theorem oldOuts_all (pb : OldPb St BI SI) (unsat : ((String → Nat) → Prop) → Bool) (bvL : List BI)
    (c : Nat × SI × List (Option String × String)) (st : (String → Nat) → St) (l : List (Nat × Option OTy)) (n n' : Nat)
    (h : (oldOuts pb unsat bvL c.1 c.2.1 c.2.2 st l n).2 = .inl n') (x : Nat × Option OTy) (hx : x ∈ l)
    (h1 : x.2 = some pb.coreSort)
    (h2 : unsat (fun ρ => (pb.call (st ρ) c.2.1 (bindingEnv c.2.2 ρ)).2[x.1]? ≠ some (pb.coreFn ρ)) = true) :
    ∃ m ∈ (oldOuts pb unsat bvL c.1 c.2.1 c.2.2 st l n).1,
      pb.peakOutputs[x.1]? = some m.output ∧ bvL[c.1]? = some m.instruction ∧ m.inputMap = oldInputMap c.2.2 := by
  induction l generalizing n with
  | nil => simp at hx
  | cons e l ih =>
    obtain ⟨idx, s⟩ := e
    unfold oldOuts at h ⊢
    split at h
    · next hc =>
      rw [if_pos hc]
      cases ho : pb.peakOutputs[idx]? with
      | none => rw [ho] at h; simp at h
      | some o =>
        cases hi : bvL[c.1]? with
        | none => rw [ho, hi] at h; simp at h
        | some i =>
          rw [ho, hi] at h
          simp only at h ⊢
          split at h
          · simp at h
          · next hn =>
            rw [if_neg hn]
            rcases List.mem_cons.mp hx with rfl | hx
            · exact ⟨⟨i, o, oldInputMap c.2.2⟩, by simp, ho, rfl, rfl⟩
            · obtain ⟨m, hm, r⟩ := ih _ h hx
              rw [hi] at r
              exact ⟨m, by simp [hm], r⟩
    · next hc =>
      rw [if_neg hc]
      rcases List.mem_cons.mp hx with rfl | hx
      · exact absurd ⟨h1, h2⟩ hc
      · exact ih _ h hx

theorem oldCalls_all (pb : OldPb St BI SI) (unsat : ((String → Nat) → Prop) → Bool) (bvL : List BI)
    (cs : List (Nat × SI × List (Option String × String))) (st : (String → Nat) → St) (n n' : Nat)
    (h : (oldCalls pb unsat bvL cs st n).2 = .inl n') (c : Nat × SI × List (Option String × String)) (hc : c ∈ cs) (idx : Nat)
    (h1 : (pb.outSorts c.2.1)[idx]? = some (some pb.coreSort))
    (h2 : ∀ st : (String → Nat) → St,
      unsat (fun ρ => (pb.call (st ρ) c.2.1 (bindingEnv c.2.2 ρ)).2[idx]? ≠ some (pb.coreFn ρ)) = true) :
    ∃ m ∈ (oldCalls pb unsat bvL cs st n).1,
      pb.peakOutputs[idx]? = some m.output ∧ bvL[c.1]? = some m.instruction ∧ m.inputMap = oldInputMap c.2.2 := by
  induction cs generalizing st n with
  | nil => simp at hc
  | cons d cs ih =>
    obtain ⟨ii, i, b⟩ := d
    unfold oldCalls at h ⊢
    rcases hr : oldOuts pb unsat bvL ii i b st ((pb.outSorts i).zipIdx.map (fun e => (e.2, e.1))) n with ⟨ys, n1 | o⟩
    · rw [hr] at h
      rw [hr]
      simp only [] at h ⊢
      rcases List.mem_cons.mp hc with rfl | hc
      · obtain ⟨m, hm, r⟩ := oldOuts_all pb unsat bvL (ii, i, b) st ((pb.outSorts i).zipIdx.map (fun e => (e.2, e.1))) n n1
          (by rw [hr]) (idx, some pb.coreSort)
          (List.mem_map.mpr ⟨(some pb.coreSort, idx), List.mem_zipIdx_iff_getElem?.mpr h1, rfl⟩) rfl (h2 st)
        rw [hr] at hm
        exact ⟨m, by simp [hm], r⟩
      · obtain ⟨m, hm, r⟩ := ih _ _ h hc
        exact ⟨m, by simp [hm], r⟩
    · rw [hr] at h
      simp at h

theorem genMapping_ok (pb : OldPb St BI SI) (unsat : ((String → Nat) → Prop) → Bool) (mx : Int)
    (bs : List (List (Option String × String))) (hb : oldBindings (filterIO pb.peakInputs) (coreInputs pb.coreIn) = .ok bs) (hm : 0 < mx) :
    genMapping pb unsat mx = ((oldCalls pb unsat (pb.bvIsa.filter pb.okBv)
      (((pb.smtIsa.filter pb.okSmt).zipIdx).flatMap (fun e => bs.map (fun b => (e.2, e.1, b)))) (fun _ => pb.init) mx.toNat).1,
      match (oldCalls pb unsat (pb.bvIsa.filter pb.okBv)
        (((pb.smtIsa.filter pb.okSmt).zipIdx).flatMap (fun e => bs.map (fun b => (e.2, e.1, b)))) (fun _ => pb.init) mx.toNat).2 with
      | .inl _ => none | .inr x => x) := by
  unfold genMapping
  rw [hb]
  simp only
  rw [if_neg (by omega)]
  rfl

theorem mem_calls (smtL : List SI) (bs : List (List (Option String × String))) (c : Nat × SI × List (Option String × String)) :
    c ∈ smtL.zipIdx.flatMap (fun e => bs.map (fun b => (e.2, e.1, b))) ↔ smtL[c.1]? = some c.2.1 ∧ c.2.2 ∈ bs := by
  obtain ⟨ii, i, b⟩ := c
  simp only [List.mem_flatMap, List.mem_map, Prod.exists, Prod.mk.injEq]
  constructor
  · rintro ⟨i', ii', h1, b', h2, rfl, rfl, rfl⟩
    exact ⟨List.mem_zipIdx_iff_getElem?.mp h1, h2⟩
  · rintro ⟨h1, h2⟩
    exact ⟨i, ii, List.mem_zipIdx_iff_getElem?.mpr h1, b, h2, rfl, rfl, rfl⟩

theorem fits_in (core : List (String × Nat)) (h : CoreNames core) (ρ : String → Nat) (hρ : CoreFits core ρ) :
    CoreFits (core.map (fun e => (if e.1 = "in" then "in_" else e.1, e.2))) (fun n => ρ (outName n)) := by
  intro e he
  obtain ⟨⟨c, w⟩, hc, rfl⟩ := List.mem_map.mp he
  have : outName (if c = "in" then "in_" else c) = c := by
    by_cases hk : c = "in"
    · subst hk; decide
    · rw [if_neg hk]; unfold outName; rw [if_neg]; rintro rfl
      exact h.noIn (List.mem_map.mpr ⟨_, hc, rfl⟩)
  simp only [this]
  exact hρ _ hc

theorem forall2_filter {α β : Type} (R : α → β → Prop) (p : α → Bool) (q : β → Bool) (l : List α) (m : List β)
    (h : List.Forall₂ R l m) (hpq : ∀ a b, R a b → p a = q b) : List.Forall₂ R (l.filter p) (m.filter q) := by
  induction h with
  | nil => exact .nil
  | @cons a b l m h1 _ ih =>
    simp only [List.filter_cons]
    rw [hpq a b h1]
    split
    · exact .cons h1 ih
    · exact ih

theorem forall2_get {α β : Type} (R : α → β → Prop) (l : List α) (m : List β) (h : List.Forall₂ R l m) (k : Nat) (b : β)
    (hb : m[k]? = some b) : ∃ a, l[k]? = some a ∧ R a b := by
  induction h generalizing k with
  | nil => simp at hb
  | cons h1 _ ih =>
    cases k with
    | zero => simp at hb; subst hb; exact ⟨_, rfl, h1⟩
    | succ k => simp at hb; simpa using ih k hb

end
end Peak.Old

namespace Peak

section
variable {St BI SI : Type}

/-- C57: the assertions of `gen_mapping` fail exactly when the inputs of the CoreIR module cannot be assigned to distinct PE inputs of their
types; this does not depend on the number of mappings asked for. -/
theorem C57_assertion (pb : OldPb St BI SI) (unsat : ((String → Nat) → Prop) → Bool) (mx : Int) (hc : CoreNames pb.coreIn)
    (hp : ((filterIO pb.peakInputs).map (·.1)).Nodup) :
    genMapping pb unsat mx = ([], some .assertionError) ↔
      ¬ ∃ f, IsAssignment (filterIO pb.peakInputs) (pb.coreIn.map (fun e => (e.1, OTy.bv e.2))) f := by
  have hn := Old.inName_nodup pb.coreIn hc
  have hren : coreInputs pb.coreIn = (pb.coreIn.map (fun e => (e.1, OTy.bv e.2))).map (fun e => (inName e.1, e.2)) := by
    rw [Old.coreInputs_eq pb.coreIn hc, List.map_map]; rfl
  have hkeys : (pb.coreIn.map (fun e => (e.1, OTy.bv e.2))).map (·.1) = pb.coreIn.map (·.1) := by rw [List.map_map]; rfl
  constructor
  · rintro h ⟨f, hf⟩
    have hf' := Old.rename_assignment _ _ inName (by rw [hkeys]; exact Old.inName_inj pb.coreIn hc) f hf
    rw [← hren] at hf'
    obtain ⟨b, hb, _⟩ := C28_complete _ _ hp hn _ hf'
    obtain ⟨bs, hbs, _⟩ := Old.create_to_old _ _ hn b hb
    by_cases hm : 0 < mx
    · rw [Old.genMapping_ok pb unsat mx bs hbs hm] at h
      have hcount := Old.oldCalls_count pb unsat (pb.bvIsa.filter pb.okBv)
        (((pb.smtIsa.filter pb.okSmt).zipIdx).flatMap (fun e => bs.map (fun b => (e.2, e.1, b)))) (fun _ => pb.init) mx.toNat (by omega)
      generalize oldCalls pb unsat (pb.bvIsa.filter pb.okBv) _ (fun _ => pb.init) mx.toNat = r at h hcount
      obtain ⟨ys, n' | o⟩ := r
      · simp at h
      · simp only [Prod.mk.injEq] at h
        rw [h.2] at hcount
        exact absurd hcount.2.1 (by decide)
    · unfold genMapping at h
      rw [hbs] at h
      simp only at h
      rw [if_pos (by omega)] at h
      simp at h
  · intro hno
    rcases Old.oldBindings_eq (filterIO pb.peakInputs) (coreInputs pb.coreIn) with ⟨_, h⟩ | ⟨_, h⟩
    · exfalso
      obtain ⟨b, hb⟩ := Old.oldBindings_ne _ _ _ h
      obtain ⟨b', hb', _⟩ := Old.old_to_create _ _ hp hn _ h b hb
      obtain ⟨f, _, hf⟩ := C28_sound _ _ hp hn b' hb'
      refine hno ⟨fun a => (f a).map Old.outName, ?_⟩
      have := Old.rename_assignment _ _ Old.outName ?_ f hf
      · have hid : (coreInputs pb.coreIn).map (fun e => (Old.outName e.1, e.2)) = pb.coreIn.map (fun e => (e.1, OTy.bv e.2)) := by
          rw [Old.coreInputs_eq pb.coreIn hc, List.map_map]
          refine List.map_congr_left ?_
          intro e he
          simp only [Function.comp, Old.outName_inName e.1 (fun h' => hc.noIn (h' ▸ List.mem_map_of_mem he))]
        rw [hid] at this
        exact this
      · intro a ha b hb hab
        rw [Old.coreInputs_eq pb.coreIn hc, List.map_map] at ha hb
        obtain ⟨e, he, rfl⟩ := List.mem_map.mp ha
        obtain ⟨e', he', rfl⟩ := List.mem_map.mp hb
        simp only [Function.comp] at hab ⊢
        rw [Old.outName_inName e.1 (fun h' => hc.noIn (h' ▸ List.mem_map_of_mem he)),
          Old.outName_inName e'.1 (fun h' => hc.noIn (h' ▸ List.mem_map_of_mem he'))] at hab
        rw [hab]
    · unfold genMapping
      rw [h]

/-- C57: at most the number of mappings asked for is yielded, and none when that number is not positive. -/
theorem C57_count (pb : OldPb St BI SI) (unsat : ((String → Nat) → Prop) → Bool) (mx : Int) :
    ((genMapping pb unsat mx).1.length : Int) ≤ max mx 0 := by
  rcases Old.oldBindings_eq (filterIO pb.peakInputs) (coreInputs pb.coreIn) with ⟨_, h⟩ | ⟨_, h⟩
  · by_cases hm : 0 < mx
    · rw [Old.genMapping_ok pb unsat mx _ h hm]
      have hcount := Old.oldCalls_count pb unsat (pb.bvIsa.filter pb.okBv)
        (((pb.smtIsa.filter pb.okSmt).zipIdx).flatMap (fun e => (List.map List.flatten (pyProduct (List.map (fun e => oldTypeBindings
          (((sortByT (coreInputs pb.coreIn)).lookup e.1).getD []) e.2) (sortByT (filterIO pb.peakInputs))))).map (fun b => (e.2, e.1, b))))
        (fun _ => pb.init) mx.toNat (by omega)
      generalize oldCalls pb unsat (pb.bvIsa.filter pb.okBv) _ (fun _ => pb.init) mx.toNat = r at hcount
      obtain ⟨ys, n' | o⟩ := r
      · simp only [Old.CountOK] at hcount ⊢; omega
      · cases o with
        | none => simp only [Old.CountOK] at hcount ⊢; omega
        | some e => simp only [Old.CountOK] at hcount ⊢; omega
    · unfold genMapping
      rw [h]
      simp only
      rw [if_pos (by omega)]
      simp only [List.length_nil]
      omega
  · unfold genMapping
    rw [h]
    simp only [List.length_nil]
    omega

/-- C57, soundness: for a PE whose outputs do not depend on its state, each mapping yielded works: there is an SMT instruction that
corresponds (`R`) to the instruction of the mapping and meets the constraints, and with the inputs the mapping describes it gives the CoreIR
module's value on the output the mapping names, whatever the inputs.  Missing: PEs with state, for which this is false
(`C57_violated_state`), and modules with an input named `in_` (`C57_violated_in_`). -/
theorem C57_sound_partial (pb : OldPb St BI SI) (unsat : ((String → Nat) → Prop) → Bool) (mx : Int) (hc : CoreNames pb.coreIn)
    (hp : ((filterIO pb.peakInputs).map (·.1)).Nodup) (hu : SolverCorrect pb unsat) (hs : Stateless pb)
    (R : BI → SI → Prop) (hR : List.Forall₂ R pb.bvIsa pb.smtIsa) (hok : ∀ b s, R b s → pb.okBv b = pb.okSmt s)
    (m : OldMap BI) (h : m ∈ (genMapping pb unsat mx).1) :
    ∃ inst idx, R m.instruction inst ∧ inst ∈ pb.smtIsa ∧ pb.okSmt inst = true ∧
      pb.peakOutputs[idx]? = some m.output ∧ (pb.outSorts inst)[idx]? = some (some pb.coreSort) ∧
      Implements pb inst (mappedInput m.inputMap) idx := by
  have hn := Old.inName_nodup pb.coreIn hc
  rcases Old.oldBindings_eq (filterIO pb.peakInputs) (coreInputs pb.coreIn) with ⟨_, hbs⟩ | ⟨_, hbs⟩
  · by_cases hm : 0 < mx
    · rw [Old.genMapping_ok pb unsat mx _ hbs hm] at h
      obtain ⟨c, hcm, st, idx, h1, h2, h3, h4, h5⟩ := Old.mem_oldCalls _ _ _ _ _ _ _ h
      obtain ⟨hi, hb⟩ := (Old.mem_calls _ _ c).mp hcm
      obtain ⟨b', hb', hperm⟩ := Old.old_to_create _ _ hp hn _ hbs c.2.2 hb
      obtain ⟨f, hr, hf⟩ := C28_sound _ _ hp hn b' hb'
      have hg := Old.goodBinding _ pb.coreIn hc hp c.2.2 f (Old.represents_perm _ _ _ hperm f hr) hf
      obtain ⟨a, ha, hRa⟩ := Old.forall2_get R _ _ (Old.forall2_filter R _ _ _ _ hR hok) c.1 c.2.1 hi
      have hai : a = m.instruction := by rw [h4] at ha; cases ha; rfl
      have hmem := List.mem_of_getElem? hi
      rw [List.mem_filter] at hmem
      refine ⟨c.2.1, idx, hai ▸ hRa, hmem.1, hmem.2, h3, h1, ?_⟩
      intro ρ hρ
      have := (hu _).mp h2 (fun n => ρ (Old.outName n)) (Old.fits_in pb.coreIn hc ρ hρ)
      rw [not_not, hs] at this
      have henv : bindingEnv c.2.2 (fun n => ρ (Old.outName n)) = mappedInput m.inputMap ρ := by
        funext k
        rw [h5]
        exact Old.env_eq _ pb.coreIn c.2.2 hg ρ k
      rw [henv] at this
      exact this
    · unfold genMapping at h
      rw [hbs] at h
      simp only at h
      rw [if_pos (by omega)] at h
      simp at h
  · unfold genMapping at h
    rw [hbs] at h
    simp at h

/-- C57: when the two instruction sets correspond, and every returned value has a name, the generator does not raise after its
assertions. -/
theorem C57_no_error (pb : OldPb St BI SI) (unsat : ((String → Nat) → Prop) → Bool) (mx : Int)
    (R : BI → SI → Prop) (hR : List.Forall₂ R pb.bvIsa pb.smtIsa) (hok : ∀ b s, R b s → pb.okBv b = pb.okSmt s)
    (ho : ∀ i, (pb.outSorts i).length ≤ pb.peakOutputs.length) :
    (genMapping pb unsat mx).2 = none ∨ genMapping pb unsat mx = ([], some .assertionError) := by
  rcases Old.oldBindings_eq (filterIO pb.peakInputs) (coreInputs pb.coreIn) with ⟨_, h⟩ | ⟨_, h⟩
  · left
    by_cases hm : 0 < mx
    · rw [Old.genMapping_ok pb unsat mx _ h hm]
      have hcount := Old.oldCalls_count pb unsat (pb.bvIsa.filter pb.okBv)
        (((pb.smtIsa.filter pb.okSmt).zipIdx).flatMap (fun e => (List.map List.flatten (pyProduct (List.map (fun e => oldTypeBindings
          (((sortByT (coreInputs pb.coreIn)).lookup e.1).getD []) e.2) (sortByT (filterIO pb.peakInputs))))).map (fun b => (e.2, e.1, b))))
        (fun _ => pb.init) mx.toNat (by omega)
      generalize hr : oldCalls pb unsat (pb.bvIsa.filter pb.okBv) _ (fun _ => pb.init) mx.toNat = r at hcount
      obtain ⟨ys, n' | o⟩ := r
      · rfl
      · cases o with
        | none => rfl
        | some e =>
          exfalso
          obtain ⟨_, _, c, hc, h⟩ := hcount
          rcases h with ⟨idx, h1, h2⟩ | h
          · rw [List.getElem?_eq_none_iff] at h2
            apply h1
            rw [List.getElem?_eq_none_iff]
            exact Nat.le_trans (ho _) h2
          · obtain ⟨hi, _⟩ := (Old.mem_calls _ _ c).mp hc
            obtain ⟨a, ha, _⟩ := Old.forall2_get R _ _ (Old.forall2_filter R _ _ _ _ hR hok) c.1 c.2.1 hi
            rw [ha] at h
            cases h
    · unfold genMapping
      rw [h]
      simp only
      rw [if_pos (by omega)]
  · right
    unfold genMapping
    rw [h]

/-- C57, completeness: for a PE whose outputs do not depend on its state, when fewer mappings than asked for are yielded and no exception
ends the search, every assignment of the CoreIR inputs to PE inputs of their types, every instruction that meets the constraints and every
output with which the PE computes the CoreIR module is found: some mapping has that output, an instruction that corresponds to this one, and
gives the PE these inputs.  Missing: PEs with state, and modules with an input named `in_`. -/
theorem C57_complete_partial (pb : OldPb St BI SI) (unsat : ((String → Nat) → Prop) → Bool) (mx : Int) (hc : CoreNames pb.coreIn)
    (hp : ((filterIO pb.peakInputs).map (·.1)).Nodup) (hu : SolverCorrect pb unsat) (hs : Stateless pb) (hrp : ReadsParams pb)
    (R : BI → SI → Prop) (hR : List.Forall₂ R pb.bvIsa pb.smtIsa) (hok : ∀ b s, R b s → pb.okBv b = pb.okSmt s)
    (herr : (genMapping pb unsat mx).2 = none) (hlen : ((genMapping pb unsat mx).1.length : Int) < mx)
    (f : String → Option String) (hf : IsAssignment (filterIO pb.peakInputs) (pb.coreIn.map (fun e => (e.1, OTy.bv e.2))) f)
    (inst : SI) (hi : inst ∈ pb.smtIsa) (hio : pb.okSmt inst = true) (idx : Nat)
    (hsort : (pb.outSorts inst)[idx]? = some (some pb.coreSort))
    (himp : Implements pb inst (givenInput pb f) idx) :
    ∃ m ∈ (genMapping pb unsat mx).1, R m.instruction inst ∧ pb.peakOutputs[idx]? = some m.output ∧
      ∀ ρ, mappedInput m.inputMap ρ = givenInput pb f ρ := by
  have hn := Old.inName_nodup pb.coreIn hc
  have hren : coreInputs pb.coreIn = (pb.coreIn.map (fun e => (e.1, OTy.bv e.2))).map (fun e => (inName e.1, e.2)) := by
    rw [Old.coreInputs_eq pb.coreIn hc, List.map_map]; rfl
  have hkeys : (pb.coreIn.map (fun e => (e.1, OTy.bv e.2))).map (·.1) = pb.coreIn.map (·.1) := by rw [List.map_map]; rfl
  have hf' := Old.rename_assignment _ _ inName (by rw [hkeys]; exact Old.inName_inj pb.coreIn hc) f hf
  rw [← hren] at hf'
  obtain ⟨b0, hb0, hr0⟩ := C28_complete _ _ hp hn _ hf'
  obtain ⟨bs, hbs, b, hb, hperm⟩ := Old.create_to_old _ _ hn b0 hb0
  have hr := Old.represents_perm _ _ _ hperm _ hr0
  have hg := Old.goodBinding _ pb.coreIn hc hp b _ hr hf'
  have hm : 0 < mx := by omega
  -- the inputs given by the binding
  have hgiven : ∀ (ρ : String → Nat), bindingEnv b (fun n => ρ (Old.outName n)) = givenInput pb f ρ := by
    intro ρ
    funext k
    unfold bindingEnv givenInput
    cases hfind : b.find? (fun e => e.2 == k) with
    | none =>
      rw [List.find?_eq_none] at hfind
      rw [if_neg]
      intro hk
      obtain ⟨e, he, hek⟩ := List.mem_map.mp (hr.1.symm.subset hk)
      have := hfind e he
      simp [hek] at this
    | some e =>
      obtain ⟨o, k'⟩ := e
      have hx := List.find?_some hfind
      simp only [beq_iff_eq] at hx
      subst hx
      have hmem := List.mem_of_find?_eq_some hfind
      have hkm : k' ∈ (filterIO pb.peakInputs).map (·.1) := hr.1.subset (List.mem_map.mpr ⟨_, hmem, rfl⟩)
      rw [if_pos hkm]
      have ho := hr.2 _ hmem
      simp only at ho
      cases hfk : f k' with
      | none => rw [hfk] at ho; subst ho; rfl
      | some c =>
        rw [hfk] at ho
        subst ho
        simp only [Option.map_some]
        obtain ⟨_, c', hc', hv, ho'⟩ := hg.name _ hmem (inName c) rfl
        obtain ⟨⟨_, t⟩, hkt, rfl⟩ := List.mem_map.mp hkm
        have hcm : c ∈ pb.coreIn.map (·.1) := by
          rw [← hkeys]
          exact List.mem_map.mpr ⟨_, hf.typed _ t c hkt hfk, rfl⟩
        rw [Old.outName_inName c (fun h => hc.noIn (h ▸ hcm))]
  rw [Old.genMapping_ok pb unsat mx bs hbs hm] at herr hlen ⊢
  have hcount := Old.oldCalls_count pb unsat (pb.bvIsa.filter pb.okBv)
    (((pb.smtIsa.filter pb.okSmt).zipIdx).flatMap (fun e => bs.map (fun b => (e.2, e.1, b)))) (fun _ => pb.init) mx.toNat (by omega)
  have hend : ∃ n', (oldCalls pb unsat (pb.bvIsa.filter pb.okBv)
    (((pb.smtIsa.filter pb.okSmt).zipIdx).flatMap (fun e => bs.map (fun b => (e.2, e.1, b)))) (fun _ => pb.init) mx.toNat).2 = .inl n' := by
    generalize oldCalls pb unsat (pb.bvIsa.filter pb.okBv) _ (fun _ => pb.init) mx.toNat = r at hcount herr hlen
    obtain ⟨ys, n' | o⟩ := r
    · exact ⟨n', rfl⟩
    · simp only at herr
      subst herr
      simp only [Old.CountOK] at hcount hlen
      omega
  obtain ⟨n', hend⟩ := hend
  obtain ⟨ii, hii⟩ := List.getElem?_of_mem (List.mem_filter.mpr ⟨hi, hio⟩)
  obtain ⟨m, hm', h3, h4, h5⟩ := Old.oldCalls_all pb unsat _ _ _ _ n' hend (ii, inst, b) ((Old.mem_calls _ _ _).mpr ⟨hii, hb⟩) idx hsort (by
    intro st
    rw [hu]
    intro ρ hρ
    rw [not_not, hs]
    -- the values of the CoreIR inputs under their own names
    have hfit : CoreFits pb.coreIn (fun n => ρ (inName n)) := by
      intro e he
      have := hρ (if e.1 = "in" then "in_" else e.1, e.2) (List.mem_map.mpr ⟨e, he, rfl⟩)
      simp only at this
      have hin : inName e.1 = if e.1 = "in" then "in_" else e.1 := by
        unfold inName
        by_cases hk : e.1 = "in"
        · rw [if_pos hk, if_neg (fun h => h hk)]
        · rw [if_neg hk, if_pos hk]
      show ρ (inName e.1) < 2 ^ e.2
      rw [hin]
      exact this
    have himp' := himp _ hfit
    rw [← hgiven] at himp'
    have henv : bindingEnv b (fun n => ρ (inName (Old.outName n))) = bindingEnv b ρ := by
      funext k
      unfold bindingEnv
      cases hfind : b.find? (fun e => e.2 == k) with
      | none => rfl
      | some e =>
        obtain ⟨o, k'⟩ := e
        cases o with
        | none => rfl
        | some v =>
          obtain ⟨_, c, hcm, hv, ho⟩ := hg.name _ (List.mem_of_find?_eq_some hfind) v rfl
          show ρ (inName (Old.outName v)) = ρ v
          rw [ho, ← hv]
    have hcore : coreValue pb (fun n => ρ (inName n)) = pb.coreFn ρ := by
      refine hrp _ _ ?_
      intro e he
      have hne : e.1 ≠ "in_" := fun h => hc.noIn (h ▸ List.mem_map_of_mem he)
      have : (if inName e.1 = "in_" then "in" else inName e.1) = e.1 := Old.outName_inName e.1 hne
      simp only [this]
    rw [hcore] at himp'
    simp only at himp' ⊢
    rw [henv] at himp'
    exact himp')
  refine ⟨m, hm', ?_, h3, ?_⟩
  · obtain ⟨a, ha, hRa⟩ := Old.forall2_get R _ _ (Old.forall2_filter R _ _ _ _ hR hok) ii inst hii
    simp only at h4
    rw [h4] at ha
    cases ha
    exact hRa
  · intro ρ
    rw [← hgiven ρ]
    funext k
    rw [h5]
    exact (Old.env_eq _ pb.coreIn b hg ρ k).symm

end
end Peak
