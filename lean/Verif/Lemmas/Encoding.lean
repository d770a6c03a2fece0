import Verif.Lemmas.Enum
import Verif.Lemmas.Basic
/-! Facts about the specification of encodings (no reference to the assembler). -/

namespace Peak
open Peak.Spec

theorem foldl_max_le (l : List Nat) (a x : Nat) : l.foldl max a ≤ x ↔ a ≤ x ∧ ∀ y ∈ l, y ≤ x := by
  induction l generalizing a with
  | nil => simp
  | cons y l ih => rw [List.foldl_cons, ih, List.forall_mem_cons, Nat.max_le, and_assoc]

theorem foldl_max_congr {l l' : List Nat} (h : ∀ x, x ∈ l ↔ x ∈ l') : l.foldl max 0 = l'.foldl max 0 := by
  have h1 := (foldl_max_le l 0 (l'.foldl max 0)).2 ⟨by omega, fun y hy =>
    ((foldl_max_le l' 0 _).1 (Nat.le_refl _)).2 y ((h y).1 hy)⟩
  have h2 := (foldl_max_le l' 0 (l.foldl max 0)).2 ⟨by omega, fun y hy =>
    ((foldl_max_le l 0 _).1 (Nat.le_refl _)).2 y ((h y).2 hy)⟩
  omega

theorem le_foldl_max {l : List Nat} {x : Nat} (h : x ∈ l) : x ≤ l.foldl max 0 :=
  ((foldl_max_le l 0 _).1 (Nat.le_refl _)).2 x h

theorem mem_enumCodes {ms : List EVal} {n : Nat} : n ∈ enumCodes ms ↔ ∃ e, enumCode ms e = some n := by
  unfold enumCodes
  rw [List.mem_filterMap]
  constructor
  · rintro ⟨e, _, h⟩; exact ⟨e, h⟩
  · rintro ⟨e, h⟩; exact ⟨e, enumCode_mem h, h⟩

theorem enumCode_lt {ms : List EVal} {e : EVal} {n : Nat} (h : enumCode ms e = some n) : n < 2 ^ enumWidth ms := by
  have h1 := le_foldl_max (mem_enumCodes.2 ⟨e, h⟩)
  have h2 := lt_two_pow_bitLength ((enumCodes ms).foldl max 0)
  unfold enumWidth; omega

theorem lt_tagBits {n i : Nat} (h : i < n) : i < 2 ^ tagBits n := by
  have := lt_two_pow_bitLength (n - 1)
  unfold tagBits; omega

theorem div_mod_pow (n a w : Nat) (h : a ≤ w) : n % 2 ^ w / 2 ^ a = n / 2 ^ a % 2 ^ (w - a) := by
  have : 2 ^ w = 2 ^ a * 2 ^ (w - a) := by rw [← Nat.pow_add]; congr 1; omega
  rw [this, Nat.mod_mul_right_div_self]

theorem mod_mod_pow (n a w : Nat) (h : a ≤ w) : n % 2 ^ w % 2 ^ a = n % 2 ^ a :=
  Nat.mod_mod_of_dvd _ (Nat.pow_dvd_pow 2 h)

mutual
/-- Only the low `width t` bits matter. -/
theorem reads_mod : ∀ (t : Ty) (n w : Nat) (v : Val), width t ≤ w → (Reads t (n % 2 ^ w) v ↔ Reads t n v)
  | .bv c w', n, w, v, h => by
    cases v <;> simp only [Reads]
    have : BV.ofNat w' (n % 2 ^ w) = BV.ofNat w' n := BV.ext rfl (mod_mod_pow n w' w h)
    rw [this]
  | .bit c, n, w, v, h => by
    cases v <;> simp only [Reads]
    have := mod_mod_pow n 1 w h
    simp only [Nat.pow_one] at this
    rw [this]
  | .enum c ms, n, w, v, h => by
    cases v <;> simp only [Reads]
    simp only [width] at h
    rw [mod_mod_pow n _ w h]
  | .prod c fs, n, w, v, h => by
    cases v <;> simp only [Reads]
    exact readsAll_mod fs n w _ h
  | .sum c fs, n, w, v, h => by
    cases v <;> simp only [Reads]
    simp only [width] at h
    rw [mod_mod_pow n _ w (by omega), div_mod_pow n _ w (by omega)]
    exact readsAt_mod fs _ _ _ _ _ (by omega)
theorem readsAll_mod : ∀ (fs : Fields) (n w : Nat) (vs : List Val), sumWidths fs ≤ w →
    (ReadsAll fs (n % 2 ^ w) vs ↔ ReadsAll fs n vs)
  | .nil, n, w, vs, h => by cases vs <;> simp only [ReadsAll]
  | .cons k t fs, n, w, vs, h => by
    cases vs with
    | nil => simp only [ReadsAll]
    | cons v vs =>
      simp only [ReadsAll]
      simp only [sumWidths] at h
      rw [reads_mod t n w v (by omega), div_mod_pow n _ w (by omega), readsAll_mod fs _ _ vs (by omega)]
theorem readsAt_mod : ∀ (fs : Fields) (tag : Nat) (k : Key) (n w : Nat) (v : Val), maxWidth fs ≤ w →
    (ReadsAt fs tag k (n % 2 ^ w) v ↔ ReadsAt fs tag k n v)
  | .nil, tag, k, n, w, v, h => by simp only [ReadsAt]
  | .cons k' t fs, tag, k, n, w, v, h => by
    simp only [maxWidth] at h
    cases tag with
    | zero => simp only [ReadsAt]; rw [reads_mod t n w v (by omega)]
    | succ tag => simp only [ReadsAt]; exact readsAt_mod fs tag k n w v (by omega)
end

mutual
/-- A pattern spells at most one value. -/
theorem reads_unique : ∀ (t : Ty), WF t → ∀ (n : Nat) (v v' : Val), Reads t n v → Reads t n v' → v = v'
  | .bv c w, _, n, v, v', h, h' => by
    cases v <;> cases v' <;> simp_all only [Reads]
  | .bit c, _, n, v, v', h, h' => by
    cases v <;> cases v' <;> simp only [Reads] at h h'
    next b b' => cases b <;> cases b' <;> simp at h h' ⊢ <;> omega
  | .enum c ms, hw, n, v, v', h, h' => by
    cases v <;> cases v' <;> simp only [Reads] at h h'
    rw [enumCode_inj hw.2.2 h h']
  | .prod c fs, hw, n, v, v', h, h' => by
    cases v <;> cases v' <;> simp only [Reads] at h h'
    rw [readsAll_unique fs hw.2 _ _ _ h h']
  | .sum c fs, hw, n, v, v', h, h' => by
    cases v <;> cases v' <;> simp only [Reads] at h h'
    obtain ⟨h1, h2⟩ := readsAt_unique fs hw.2.2 _ _ _ _ _ _ h h'
    rw [h1, h2]
theorem readsAll_unique : ∀ (fs : Fields), WFs fs → ∀ (n : Nat) (vs vs' : List Val),
    ReadsAll fs n vs → ReadsAll fs n vs' → vs = vs'
  | .nil, _, n, vs, vs', h, h' => by cases vs <;> cases vs' <;> simp_all [ReadsAll]
  | .cons k t fs, hw, n, vs, vs', h, h' => by
    cases vs <;> cases vs' <;> simp only [ReadsAll] at h h'
    rw [reads_unique t hw.1 _ _ _ h.1 h'.1, readsAll_unique fs hw.2 _ _ _ h.2 h'.2]
theorem readsAt_unique : ∀ (fs : Fields), WFs fs → ∀ (tag : Nat) (k k' : Key) (n : Nat) (v v' : Val),
    ReadsAt fs tag k n v → ReadsAt fs tag k' n v' → k = k' ∧ v = v'
  | .nil, _, tag, k, k', n, v, v', h, h' => by simp [ReadsAt] at h
  | .cons k0 t fs, hw, tag, k, k', n, v, v', h, h' => by
    cases tag with
    | zero =>
      simp only [ReadsAt] at h h'
      exact ⟨h.1.trans h'.1.symm, reads_unique t hw.1 _ _ _ h.2 h'.2⟩
    | succ tag => simp only [ReadsAt] at h h'; exact readsAt_unique fs hw.2 tag _ _ _ _ _ h h'
end

mutual
/-- What is spelled is a value of the type. -/
theorem reads_has : ∀ (t : Ty) (n : Nat) (v : Val), Reads t n v → t.Has v
  | .bv c w, n, v, h => by cases v <;> simp_all [Reads, Ty.Has]
  | .bit c, n, v, h => by cases v <;> simp_all [Reads, Ty.Has]
  | .enum c ms, n, v, h => by
    cases v <;> simp only [Reads] at h
    exact enumCode_mem h
  | .prod c fs, n, v, h => by
    cases v <;> simp only [Reads] at h
    exact readsAll_has fs _ _ h
  | .sum c fs, n, v, h => by
    cases v <;> simp only [Reads] at h
    exact readsAt_has fs _ _ _ _ h
theorem readsAll_has : ∀ (fs : Fields) (n : Nat) (vs : List Val), ReadsAll fs n vs → fs.HasAll vs
  | .nil, n, vs, h => by cases vs <;> simp_all [ReadsAll, Fields.HasAll]
  | .cons k t fs, n, vs, h => by
    cases vs <;> simp only [ReadsAll] at h
    exact ⟨reads_has t _ _ h.1, readsAll_has fs _ _ h.2⟩
theorem readsAt_has : ∀ (fs : Fields) (tag : Nat) (k : Key) (n : Nat) (v : Val),
    ReadsAt fs tag k n v → fs.HasAt k v
  | .nil, tag, k, n, v, h => by simp [ReadsAt] at h
  | .cons k' t fs, tag, k, n, v, h => by
    cases tag with
    | zero => simp only [ReadsAt] at h; exact Or.inl ⟨h.1, reads_has t _ _ h.2⟩
    | succ tag => simp only [ReadsAt] at h; exact Or.inr (readsAt_has fs _ _ _ _ h)
end

theorem hasAt_mem : ∀ (fs : Fields) (k : Key) (v : Val), fs.HasAt k v → k ∈ fs.toList.map (·.1)
  | .nil, k, v, h => by simp [Fields.HasAt] at h
  | .cons k' t fs, k, v, h => by
    simp only [Fields.HasAt] at h
    rcases h with h | h
    · simp [Fields.toList, h.1]
    · have := hasAt_mem fs k v h
      simp only [Fields.toList, List.map_cons, List.mem_cons]; exact Or.inr this

theorem optionIndex_lt : ∀ (fs : Fields) (k : Key), k ∈ fs.toList.map (·.1) → optionIndex fs k < fs.toList.length
  | .nil, k, h => by simp [Fields.toList] at h
  | .cons k' t fs, k, h => by
    simp only [optionIndex, Fields.toList, List.length_cons]
    split
    · omega
    · next hk =>
      simp only [Fields.toList, List.map_cons, List.mem_cons] at h
      have := optionIndex_lt fs k (h.resolve_left hk); omega

mutual
/-- The encoding fits and spells its value. -/
theorem encode_spec : ∀ (t : Ty), WF t → ∀ (v : Val), t.Has v →
    encode t v < 2 ^ width t ∧ Reads t (encode t v) v
  | .bv c w, _, v, h => by
    cases v <;> simp only [Ty.Has] at h
    next b =>
      subst h
      exact ⟨b.isLt, by simp [Reads, encode]⟩
  | .bit c, _, v, h => by
    cases v <;> simp only [Ty.Has] at h
    next b => cases b <;> simp [Reads, encode, width]
  | .enum c ms, hw, v, h => by
    cases v <;> simp only [Ty.Has] at h
    next e =>
      obtain ⟨n, hn⟩ := enumCode_isSome hw.2.1 h
      have := enumCode_lt hn
      simp only [width, encode, Reads, hn, Option.getD_some]
      exact ⟨this, by rw [Nat.mod_eq_of_lt this]⟩
  | .prod c fs, hw, v, h => by
    cases v <;> simp only [Ty.Has] at h
    simpa only [width, encode, Reads] using encodeAll_spec fs hw.2 _ h
  | .sum c fs, hw, v, h => by
    cases v <;> simp only [Ty.Has] at h
    next k v =>
      obtain ⟨h1, h2⟩ := encodeAt_spec fs hw.2.1 hw.2.2 k v h
      have h3 := lt_tagBits (optionIndex_lt fs k (hasAt_mem fs k v h))
      simp only [width, encode, Reads]
      refine ⟨?_, ?_⟩
      · rw [Nat.pow_add]
        calc optionIndex fs k + 2 ^ tagBits fs.toList.length * encodeAt fs k v
            < 2 ^ tagBits fs.toList.length + 2 ^ tagBits fs.toList.length * encodeAt fs k v := by omega
          _ = 2 ^ tagBits fs.toList.length * (encodeAt fs k v + 1) := by rw [Nat.mul_add]; omega
          _ ≤ _ := Nat.mul_le_mul_left _ h1
      · rw [Nat.add_mul_mod_self_left, Nat.mod_eq_of_lt h3,
          Nat.add_mul_div_left _ _ (Nat.two_pow_pos _), Nat.div_eq_of_lt h3, Nat.zero_add]
        exact h2
theorem encodeAll_spec : ∀ (fs : Fields), WFs fs → ∀ (vs : List Val), fs.HasAll vs →
    encodeAll fs vs < 2 ^ sumWidths fs ∧ ReadsAll fs (encodeAll fs vs) vs
  | .nil, _, vs, h => by cases vs <;> simp_all [Fields.HasAll, encodeAll, sumWidths, ReadsAll]
  | .cons k t fs, hw, vs, h => by
    cases vs <;> simp only [Fields.HasAll] at h
    next v vs =>
      obtain ⟨h1, h2⟩ := encode_spec t hw.1 v h.1
      obtain ⟨h3, h4⟩ := encodeAll_spec fs hw.2 vs h.2
      simp only [encodeAll, sumWidths, ReadsAll]
      refine ⟨?_, ?_, ?_⟩
      · rw [Nat.pow_add]
        calc encode t v + 2 ^ width t * encodeAll fs vs
            < 2 ^ width t + 2 ^ width t * encodeAll fs vs := by omega
          _ = 2 ^ width t * (encodeAll fs vs + 1) := by rw [Nat.mul_add]; omega
          _ ≤ _ := Nat.mul_le_mul_left _ h3
      · rw [← reads_mod t _ (width t) v (Nat.le_refl _), Nat.add_mul_mod_self_left, Nat.mod_eq_of_lt h1]
        exact h2
      · rw [Nat.add_mul_div_left _ _ (Nat.two_pow_pos _), Nat.div_eq_of_lt h1, Nat.zero_add]
        exact h4
theorem encodeAt_spec : ∀ (fs : Fields), (fs.toList.map (·.1)).Nodup → WFs fs → ∀ (k : Key) (v : Val), fs.HasAt k v →
    encodeAt fs k v < 2 ^ maxWidth fs ∧ ReadsAt fs (optionIndex fs k) k (encodeAt fs k v) v
  | .nil, _, _, k, v, h => by simp [Fields.HasAt] at h
  | .cons k' t fs, hn, hw, k, v, h => by
    simp only [Fields.HasAt] at h
    simp only [Fields.toList, List.map_cons, List.nodup_cons] at hn
    by_cases hk : k = k'
    · have hv : t.Has v := by
        rcases h with h | h
        · exact h.2
        · exact absurd (hk ▸ hasAt_mem fs k v h) hn.1
      obtain ⟨h1, h2⟩ := encode_spec t hw.1 v hv
      simp only [encodeAt, optionIndex, if_pos hk, maxWidth, ReadsAt]
      refine ⟨?_, hk, h2⟩
      exact Nat.lt_of_lt_of_le h1 (Nat.pow_le_pow_right (by omega) (Nat.le_max_left _ _))
    · obtain ⟨h1, h2⟩ := encodeAt_spec fs hn.2 hw.2 k v (h.resolve_left (fun h => hk h.1))
      simp only [encodeAt, optionIndex, if_neg hk, maxWidth, ReadsAt]
      exact ⟨Nat.lt_of_lt_of_le h1 (Nat.pow_le_pow_right (by omega) (Nat.le_max_right _ _)), h2⟩
end

end Peak
