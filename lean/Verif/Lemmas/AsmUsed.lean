import Verif.Lemmas.AsmEnv
import Verif.Model.Sub

namespace Peak
open Peak.Spec

theorem testBit_of_mod_eq {n m w i : Nat} (h : n % 2 ^ w = m % 2 ^ w) (hi : i < w) : n.testBit i = m.testBit i := by
  have h1 : (n % 2 ^ w).testBit i = n.testBit i := by rw [Nat.testBit_mod_two_pow]; simp [hi]
  have h2 : (m % 2 ^ w).testBit i = m.testBit i := by rw [Nat.testBit_mod_two_pow]; simp [hi]
  rw [← h1, ← h2, h]

theorem testBit_div {n w i : Nat} (h : w ≤ i) : (n / 2 ^ w).testBit (i - w) = n.testBit i := by
  rw [Nat.testBit_div_two_pow]; congr 1; omega

mutual
/-- Patterns spelling the same value agree on the used bits. -/
theorem used_eq : ∀ (t : Ty), WF t → ∀ (n m : Nat) (v : Val), Reads t n v → Reads t m v → ∀ i, Used t v i →
    n.testBit i = m.testBit i
  | .bv c w, hw, n, m, v, h, h', i, hu => by
    cases v <;> simp only [Reads] at h h'
    next b =>
      rw [h] at h'
      have := congrArg BV.val h'
      simp only [BV.ofNat_val] at this
      exact testBit_of_mod_eq this (by simpa [Used, width] using hu)
  | .bit c, hw, n, m, v, h, h', i, hu => by
    cases v <;> simp only [Reads] at h h'
    next b =>
      exact testBit_of_mod_eq (w := 1) (by simpa using h.symm.trans h') (by simpa [Used, width] using hu)
  | .enum c ms, hw, n, m, v, h, h', i, hu => by
    cases v <;> simp only [Reads] at h h'
    next e =>
      rw [h] at h'
      exact testBit_of_mod_eq (by simpa using h') (by simpa [Used, width] using hu)
  | .prod c fs, hw, n, m, v, h, h', i, hu => by
    cases v <;> simp only [Reads] at h h'
    exact usedAll_eq fs hw.2 n m _ h h' i (by simpa [Used] using hu)
  | .sum c fs, hw, n, m, v, h, h', i, hu => by
    cases v <;> simp only [Reads] at h h'
    next k v =>
      obtain ⟨h1, h2⟩ := usedAt_eq fs hw.2.1 hw.2.2 _ _ _ _ k v h h'
      simp only [Used] at hu
      rcases hu with hu | ⟨hu1, hu2⟩
      · exact testBit_of_mod_eq h1 hu
      · have := h2 _ hu2
        rwa [testBit_div hu1, testBit_div hu1] at this
theorem usedAll_eq : ∀ (fs : Fields), WFs fs → ∀ (n m : Nat) (vs : List Val), ReadsAll fs n vs → ReadsAll fs m vs → ∀ i, UsedAll fs vs i →
    n.testBit i = m.testBit i
  | .nil, hw, n, m, vs, h, h', i, hu => by cases vs <;> simp [UsedAll] at hu
  | .cons k t fs, hw, n, m, vs, h, h', i, hu => by
    cases vs <;> simp only [ReadsAll] at h h'
    next v vs =>
      simp only [UsedAll] at hu
      rcases hu with ⟨_, hu⟩ | ⟨hu1, hu2⟩
      · exact used_eq t hw.1 n m v h.1 h'.1 i hu
      · have := usedAll_eq fs hw.2 _ _ vs h.2 h'.2 _ hu2
        rwa [testBit_div hu1, testBit_div hu1] at this
theorem usedAt_eq : ∀ (fs : Fields), (fs.toList.map (·.1)).Nodup → WFs fs → ∀ (x y n m : Nat) (k : Key) (v : Val),
    ReadsAt fs x k n v → ReadsAt fs y k m v → x = y ∧ ∀ i, UsedAt fs k v i → n.testBit i = m.testBit i
  | .nil, _, _, x, y, n, m, k, v, h, h' => by simp [ReadsAt] at h
  | .cons k' t fs, hn, hw, x, y, n, m, k, v, h, h' => by
    simp only [Fields.toList, List.map_cons, List.nodup_cons] at hn
    have hmem : ∀ z p, ReadsAt fs z k p v → k ≠ k' := by
      intro z p hz hk
      exact hn.1 (hk ▸ hasAt_mem fs k v (readsAt_has fs z k p v hz))
    cases x with
    | zero =>
      simp only [ReadsAt] at h
      cases y with
      | zero =>
        simp only [ReadsAt] at h'
        refine ⟨rfl, ?_⟩
        intro i hi
        simp only [UsedAt, if_pos h.1] at hi
        exact used_eq t hw.1 n m v h.2 h'.2 i hi.2
      | succ y => simp only [ReadsAt] at h'; exact absurd h.1 (hmem _ _ h')
    | succ x =>
      simp only [ReadsAt] at h
      have hk := hmem _ _ h
      cases y with
      | zero => simp only [ReadsAt] at h'; exact absurd h'.1 hk
      | succ y =>
        simp only [ReadsAt] at h'
        obtain ⟨h1, h2⟩ := usedAt_eq fs hn.2 hw.2 x y n m k v h h'
        refine ⟨by omega, ?_⟩
        intro i hi
        simp only [UsedAt, if_neg hk] at hi
        exact h2 i hi
end

mutual
theorem used_unionFree : ∀ (t : Ty) (v : Val), t.Has v → UnionFree t → ∀ i, i < width t → Used t v i
  | .bv _ _, v, h, _, i, hi => by cases v <;> simp_all [Used, Ty.Has]
  | .bit _, v, h, _, i, hi => by cases v <;> simp_all [Used, Ty.Has]
  | .enum _ _, v, h, _, i, hi => by cases v <;> simp_all [Used, Ty.Has]
  | .prod _ fs, v, h, hu, i, hi => by
    cases v <;> simp only [Ty.Has] at h
    simp only [Used]
    exact usedAll_unionFree fs _ h hu i hi
  | .sum _ _, v, h, hu, i, hi => by simp [UnionFree] at hu
theorem usedAll_unionFree : ∀ (fs : Fields) (vs : List Val), fs.HasAll vs → UnionFrees fs → ∀ i, i < sumWidths fs → UsedAll fs vs i
  | .nil, vs, h, _, i, hi => by simp [sumWidths] at hi
  | .cons k t fs, vs, h, hu, i, hi => by
    cases vs <;> simp only [Fields.HasAll] at h
    simp only [UsedAll]
    simp only [sumWidths] at hi
    by_cases hl : i < width t
    · left; exact ⟨hl, used_unionFree t _ h.1 hu.1 i hl⟩
    · right; exact ⟨by omega, usedAll_unionFree fs _ h.2 hu.2 _ (by omega)⟩
end

/-! ### paths -/

theorem encodeAll_field : ∀ (fs : Fields), WFs fs → ∀ (base : Nat) (vs : List Val) (k : Key) (t : Ty) (v : Val), fs.HasAll vs →
    fieldOf fs vs k = some (t, v) → fs.toList.lookup k = some t ∧ WF t ∧ t.Has v ∧
      ∃ off, (layoutFrom base fs).lookup k = some (base + off, base + off + width t) ∧ off + width t ≤ sumWidths fs ∧
        encodeAll fs vs / 2 ^ off % 2 ^ width t = encode t v
  | .nil, _, base, vs, k, t, v, _, h => by cases vs <;> simp [fieldOf] at h
  | .cons k' t' fs, hw, base, vs, k, t, v, hv, h => by
    cases vs with
    | nil => simp [fieldOf] at h
    | cons v' vs =>
      simp only [Fields.HasAll] at hv
      have he := (encode_spec t' hw.1 v' hv.1).1
      simp only [fieldOf] at h
      split at h
      · next hk =>
        simp only [Option.some.injEq, Prod.mk.injEq] at h
        obtain ⟨rfl, rfl⟩ := h
        subst hk
        refine ⟨by simp [Fields.toList], hw.1, hv.1, 0, by simp [layoutFrom], by simp [sumWidths], ?_⟩
        simp only [encodeAll, Nat.pow_zero, Nat.div_one, Nat.add_mul_mod_self_left]
        exact Nat.mod_eq_of_lt he
      · next hk =>
        obtain ⟨h1, h1', h1'', off, h2, h3, h4⟩ := encodeAll_field fs hw.2 (base + width t') vs k t v hv.2 h
        have hk' : (k == k') = false := by simpa using hk
        refine ⟨by simp [Fields.toList, List.lookup_cons, hk', h1], h1', h1'', width t' + off, ?_, ?_, ?_⟩
        · simp only [layoutFrom, List.lookup_cons, hk', h2, Nat.add_assoc]
        · simp only [sumWidths]; omega
        · rw [← h4, encodeAll, Nat.pow_add, ← Nat.div_div_eq_div_mul,
            Nat.add_mul_div_left _ _ (Nat.two_pow_pos _), Nat.div_eq_of_lt he, Nat.zero_add]

theorem optionTy_spec : ∀ (fs : Fields) (k : Key) (t : Ty), optionTy fs k = some t →
    fs.toList[optionIndex fs k]? = some (k, t) ∧ fs.toList.lookup k = some t ∧ k ∈ fs.toList.map (·.1)
  | .nil, k, t, h => by simp [optionTy] at h
  | .cons k' t' fs, k, t, h => by
    simp only [optionTy] at h
    simp only [optionIndex, Fields.toList]
    split at h
    · next hk => simp only [Option.some.injEq] at h; subst h; subst hk; simp
    · next hk =>
      obtain ⟨h1, h2, h3⟩ := optionTy_spec fs k t h
      have hk' : (k == k') = false := by simpa using hk
      simp only [if_neg hk, List.getElem?_cons_succ, List.lookup_cons, hk', List.map_cons, List.mem_cons]
      exact ⟨h1, h2, Or.inr h3⟩

theorem lookup_map_snd {α β γ} [BEq α] (f : α × β → γ) (g : β → γ) (hf : ∀ p, f p = g p.2) (l : List (α × β)) (k : α) :
    (l.map (fun p => (p.1, f p))).lookup k = (l.lookup k).map g := by
  induction l with
  | nil => rfl
  | cons p l ih =>
    obtain ⟨a, b⟩ := p
    simp only [List.map_cons, List.lookup_cons, ih]
    split
    · simp [hf]
    · rfl

theorem step_encode {t : Ty} (hw : WF t) {v : Val} (hv : t.Has v) {k : Key} {t' : Ty} {v' : Val}
    (h : stepInto t v k = some (t', v')) :
    t.fieldDict.lookup k = some t' ∧ WF t' ∧ t'.Has v' ∧
      ∃ off, (layoutOf t).lookup k = some (off, off + width t') ∧ off + width t' ≤ width t ∧
        encode t v / 2 ^ off % 2 ^ width t' = encode t' v' := by
  cases t with
  | bv c w => simp [stepInto] at h
  | bit c => simp [stepInto] at h
  | enum c ms => simp [stepInto] at h
  | prod c fs =>
    cases v <;> simp only [Ty.Has] at hv
    next vs =>
      simp only [stepInto] at h
      obtain ⟨h1, h2, h3, off, h4, h5, h6⟩ := encodeAll_field fs hw.2 0 vs k t' v' hv h
      exact ⟨h1, h2, h3, off, by simpa [layoutOf] using h4, by simpa [width] using h5, by simpa [encode] using h6⟩
  | sum c fs =>
    cases v <;> simp only [Ty.Has] at hv
    next k0 v =>
      simp only [stepInto] at h
      split at h
      · next hk =>
        subst hk
        cases ho : optionTy fs k with
        | none => rw [ho] at h; simp at h
        | some t =>
          rw [ho] at h
          simp only [Option.map_some, Option.some.injEq, Prod.mk.injEq] at h
          obtain ⟨rfl, rfl⟩ := h
          obtain ⟨h1, h2, h3⟩ := optionTy_spec fs k t ho
          have hwt := wfs_mem fs hw.2.2 _ k t h1
          have hvt := hasAt_get fs k v t hw.2.1 hv h1
          refine ⟨h2, hwt, hvt, tagBits fs.toList.length, ?_, ?_, ?_⟩
          · simp only [layoutOf]
            have := lookup_map_snd (fun p : Key × Ty => (tagBits fs.toList.length, tagBits fs.toList.length + width p.2))
              (fun t => (tagBits fs.toList.length, tagBits fs.toList.length + width t)) (fun _ => rfl) fs.toList k
            rw [this, h2]; rfl
          · have := width_le_maxWidth fs _ k t h1
            simp only [width]; omega
          · have h4 := lt_tagBits (optionIndex_lt fs k h3)
            simp only [encode]
            rw [Nat.add_mul_div_left _ _ (Nat.two_pow_pos _), Nat.div_eq_of_lt h4, Nat.zero_add,
              encodeAt_get fs k v t h1]
            exact Nat.mod_eq_of_lt (encode_spec t hwt v hvt).1
      · simp at h

theorem path_spec : ∀ (p : List Key) (t : Ty) (v : Val) (s : SubObj) (st : St) (t' : Ty) (v' : Val),
    SInv Env.any st → WF t → t.Has v → s.ty = t → Good False False t s.obj → subValue t v p = some (t', v') →
    ∃ s' st', s.path p st = (.ok s', st') ∧ s'.ty = t' ∧ Good False False t' s'.obj ∧ WF t' ∧ t'.Has v' ∧
      ∃ d, s'.offset = s.offset + d ∧ d + width t' ≤ width t ∧ encode t v / 2 ^ d % 2 ^ width t' = encode t' v'
  | [], t, v, s, st, t', v', hS, hw, hv, hs, hg, h => by
    simp only [subValue, Option.some.injEq, Prod.mk.injEq] at h
    obtain ⟨rfl, rfl⟩ := h
    refine ⟨s, st, rfl, hs, hg, hw, hv, 0, rfl, by omega, ?_⟩
    rw [Nat.pow_zero, Nat.div_one, Nat.mod_eq_of_lt (encode_spec t hw v hv).1]
  | k :: p, t, v, s, st, t', v', hS, hw, hv, hs, hg, h => by
    simp only [subValue] at h
    split at h
    · simp at h
    · next t1 v1 h1 =>
      obtain ⟨e1, e2, e3, off, e4, e5, e6⟩ := step_encode hw hv h1
      obtain ⟨b1, b2⟩ := build_inv Env.any t1 st (reqs_any t1) hS
      obtain ⟨o1, ho1, hg1⟩ := b2 e2
      have hget : s.get k st = (.ok ⟨t1, o1, s.offset + off⟩, (t1.build st).2) := by
        unfold SubObj.get
        rw [hs, e1]
        simp only
        generalize t1.build st = m at *
        obtain ⟨r, st'⟩ := m
        simp only at ho1
        subst ho1
        simp only [hg.layout, e4]
      obtain ⟨s', st', p1, p2, p3, p4, p5, d, p6, p7, p8⟩ :=
        path_spec p t1 v1 ⟨t1, o1, s.offset + off⟩ _ t' v' b1 e2 e3 rfl hg1 h
      refine ⟨s', st', ?_, p2, p3, p4, p5, off + d, ?_, by omega, ?_⟩
      · simp only [SubObj.path, hget]; exact p1
      · rw [p6]; simp only; omega
      · rw [Nat.pow_add, ← Nat.div_div_eq_div_mul, ← p8, ← e6, div_mod_pow _ _ _ (by omega), mod_mod_pow _ _ _ (by omega)]

end Peak
