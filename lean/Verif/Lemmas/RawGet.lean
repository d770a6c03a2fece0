import Verif.Lemmas.SumPe
import Verif.Model.RegPe
/-!
# Reading the parts of an assembled value whose bits encode a raw value
-/

namespace Peak.RG
open Peak Peak.Spec
open Peak.RPe (isMem)

theorem bitsAt_nil (t : Ty) (n : Nat) : bitsAt t n [] = n := by cases t <;> rfl

theorem bits_field : ∀ {fs : Fields} {vs : List RVal} {k : Key} {t : Ty} {v : RVal}, WFs fs → (fs.toList.map (·.1)).Nodup → RHasAll fs vs →
    ((k, t), v) ∈ fs.toList.zip vs → bitsAtF fs (rawCodeAll fs vs) k [] = rawCode t v
  | .nil, _, _, _, _, _, _, _, h => by simp [Fields.toList] at h
  | .cons k' t' fs, [], _, _, _, _, _, hr, _ => by simp [RHasAll] at hr
  | .cons k' t' fs, v' :: vs, k, t, v, hw, hn, hr, h => by
    obtain ⟨hr1, hr2⟩ := hr
    have hlt := SB.code_lt t' v' hw.1 hr1
    simp only [Fields.toList, List.zip_cons_cons, List.mem_cons, Prod.mk.injEq] at h
    simp only [Fields.toList, List.map_cons, List.nodup_cons] at hn
    rcases h with ⟨⟨rfl, rfl⟩, rfl⟩ | h
    · simp only [bitsAtF, if_true, bitsAt_nil, rawCodeAll]
      rw [Nat.add_mul_mod_self_left, Nat.mod_eq_of_lt hlt]
    · have hk : k ∈ fs.toList.map (·.1) := List.mem_map_of_mem (f := (·.1)) (List.of_mem_zip h).1
      have hne : k ≠ k' := fun e => hn.1 (e ▸ hk)
      simp only [bitsAtF, hne, if_false, rawCodeAll]
      rw [Nat.add_mul_div_left _ _ (Nat.two_pow_pos _), Nat.div_eq_of_lt hlt, Nat.zero_add]
      exact bits_field hw.2 hn.2 hr2 h

/-- A field of a product. -/
theorem get_raw (P : Process) {c : Nat} {fs : Fields} {vs : List RVal} {k : Key} {t : Ty} {v : RVal} (hw : WF (.prod c fs)) (h : RHas (.prod c fs) (.prod vs))
    (hk : ((k, t), v) ∈ fs.toList.zip vs) : (mkAV (.prod c fs) (rawCode (.prod c fs) (.prod vs))).get P.asm k = .ok (mkAV t (rawCode t v)) := by
  obtain ⟨m, _, hg, hb⟩ := ValF.get_num P hw (SB.code_lt _ _ hw h) (List.of_mem_zip hk).1
  have := (hb []).1
  rw [bitsAt_nil] at this
  simp only [bitsAt, rawCode] at this
  rw [hg, ← this, bits_field hw.2 hw.1 h hk]

/-- A field of a product, whatever its bits. -/
theorem get_any (P : Process) {c : Nat} {fs : Fields} {n : Nat} {k : Key} {t : Ty} (hw : WF (.prod c fs)) (hn : n < 2 ^ width (.prod c fs)) (hk : (k, t) ∈ fs.toList) :
    ∃ m, m < 2 ^ width t ∧ (mkAV (.prod c fs) n).get P.asm k = .ok (mkAV t m) := by
  obtain ⟨m, h1, h2, _⟩ := ValF.get_num P hw hn hk
  exact ⟨m, h1, h2⟩

theorem has_at : ∀ {fs : Fields} {k : Key} {v : RVal}, RHasAt fs k v → ∃ t, (k, t) ∈ fs.toList ∧ RHas t v
  | .nil, _, _, h => by simp [RHasAt] at h
  | .cons k' t fs, k, v, h => by
    simp only [RHasAt] at h
    split at h
    · next e => exact ⟨t, by simp [Fields.toList, e], h⟩
    · obtain ⟨t', h1, h2⟩ := has_at h
      exact ⟨t', by simp [Fields.toList, h1], h2⟩

theorem at_has : ∀ {fs : Fields} {k : Key} {t : Ty} {v : RVal}, (fs.toList.map (·.1)).Nodup → (k, t) ∈ fs.toList → RHas t v → RHasAt fs k v
  | .nil, _, _, _, _, h, _ => by simp [Fields.toList] at h
  | .cons k' t' fs, k, t, v, hn, hk, h => by
    simp only [Fields.toList, List.map_cons, List.nodup_cons] at hn
    simp only [Fields.toList, List.mem_cons, Prod.mk.injEq] at hk
    simp only [RHasAt]
    rcases hk with ⟨rfl, rfl⟩ | hk
    · simpa using h
    · have hne : k ≠ k' := fun e => hn.1 (e ▸ List.mem_map_of_mem (f := (·.1)) hk)
      simpa [hne] using at_has hn.2 hk h

theorem code_at : ∀ {fs : Fields} {k : Key} {t : Ty} {v : RVal}, (fs.toList.map (·.1)).Nodup → (k, t) ∈ fs.toList → rawCodeAt fs k v = rawCode t v
  | .nil, _, _, _, _, h => by simp [Fields.toList] at h
  | .cons k' t' fs, k, t, v, hn, hk => by
    simp only [Fields.toList, List.map_cons, List.nodup_cons] at hn
    simp only [Fields.toList, List.mem_cons, Prod.mk.injEq] at hk
    simp only [rawCodeAt]
    rcases hk with ⟨rfl, rfl⟩ | hk
    · simp
    · have hne : k ≠ k' := fun e => hn.1 (e ▸ List.mem_map_of_mem (f := (·.1)) hk)
      simpa [hne] using code_at hn.2 hk

theorem index_inj {fs : Fields} {k k' : Key} (hn : (fs.toList.map (·.1)).Nodup) (h : k ∈ fs.toList.map (·.1)) (h' : k' ∈ fs.toList.map (·.1))
    (e : optionIndex fs k = optionIndex fs k') : k = k' := by
  obtain ⟨⟨a, t⟩, ha, rfl⟩ := List.mem_map.mp h
  obtain ⟨⟨b, u⟩, hb, rfl⟩ := List.mem_map.mp h'
  obtain ⟨i, hi⟩ := List.getElem?_of_mem ha
  obtain ⟨j, hj⟩ := List.getElem?_of_mem hb
  have e1 := optionIndex_of_get hn hi
  have e2 := optionIndex_of_get hn hj
  simp only at e
  rw [e1, e2] at e
  subst e
  rw [hi] at hj
  cases hj
  rfl

/-- The option a union holds. -/
theorem option_raw (P : Process) {c : Nat} {fs : Fields} {k : Key} {t : Ty} {v : RVal} (hw : WF (.sum c fs)) (hk : (k, t) ∈ fs.toList) (hv : RHas t v) :
    (mkAV (.sum c fs) (rawCode (.sum c fs) (.sum k v))).getOption P.asm k = .ok (true, mkAV t (rawCode t v)) ∧
    ∀ k' t', (k', t') ∈ fs.toList → k' ≠ k → ∃ m, m < 2 ^ width t' ∧ (mkAV (.sum c fs) (rawCode (.sum c fs) (.sum k v))).getOption P.asm k' = .ok (false, mkAV t' m) := by
  have hr : RHas (.sum c fs) (.sum k v) := at_has hw.2.1 hk hv
  have hn := SB.code_lt _ _ hw hr
  obtain ⟨i, hi⟩ := List.getElem?_of_mem hk
  have hwt := wfs_mem fs hw.2.2 i k t hi
  have hkm : k ∈ fs.toList.map (·.1) := List.mem_map_of_mem (f := (·.1)) hk
  have hlt := lt_tagBits (optionIndex_lt fs k hkm)
  have e1 : rawCode (.sum c fs) (.sum k v) % 2 ^ tagBits fs.toList.length = optionIndex fs k := by
    simp only [rawCode]
    rw [Nat.add_mul_mod_self_left, Nat.mod_eq_of_lt hlt]
  have e2 : rawCode (.sum c fs) (.sum k v) / 2 ^ tagBits fs.toList.length = rawCode t v := by
    simp only [rawCode]
    rw [Nat.add_mul_div_left _ _ (Nat.two_pow_pos _), Nat.div_eq_of_lt hlt, Nat.zero_add, code_at hw.2.1 hk]
  constructor
  · rw [SPe.option_match P hw hn hk, e1, e2, Nat.mod_eq_of_lt (SB.code_lt t v hwt hv)]
    simp
  · intro k' t' hk' hne
    refine ⟨rawCode (.sum c fs) (.sum k v) / 2 ^ tagBits fs.toList.length % 2 ^ width t', Nat.mod_lt _ (Nat.two_pow_pos _), ?_⟩
    rw [SPe.option_match P hw hn hk', e1]
    have : ¬ optionIndex fs k = optionIndex fs k' := fun e => hne (index_inj hw.2.1 hkm (List.mem_map_of_mem (f := (·.1)) hk') e).symm
    simp [this]

/-- An option of a union, whatever its bits. -/
theorem option_any (P : Process) {c : Nat} {fs : Fields} {n : Nat} {k : Key} {t : Ty} (hw : WF (.sum c fs)) (hn : n < 2 ^ width (.sum c fs)) (hk : (k, t) ∈ fs.toList) :
    ∃ b m, m < 2 ^ width t ∧ (mkAV (.sum c fs) n).getOption P.asm k = .ok (b, mkAV t m) :=
  ⟨_, _, Nat.mod_lt _ (Nat.two_pow_pos _), SPe.option_match P hw hn hk⟩

/-- `from_fields` of a union, from an assembled value with any bits or a value. -/
theorem from_option (P : Process) {c : Nat} {fs : Fields} {k : Key} {t : Ty} {m : Nat} {a : Arg} (hw : WF (.sum c fs)) (hk : (k, t) ∈ fs.toList) (hm : m < 2 ^ width t)
    (ha : AV.new P.asm t a = .ok (mkAV t m)) (h2 : 2 ≤ fs.toList.length) (hpos : 0 < width t) :
    AV.fromOption P.asm (.sum c fs) k a none 0 = .ok (mkAV (.sum c fs) (optionIndex fs k + 2 ^ tagBits fs.toList.length * m)) := by
  obtain ⟨i, hi⟩ := List.getElem?_of_mem hk
  have hidx := optionIndex_of_get hw.2.1 hi
  have hfit := lt_tagBits (List.getElem?_eq_some_iff.1 hi).1
  have hle := width_le_maxWidth fs i k t hi
  have htb : 0 < tagBits fs.toList.length := by
    rcases Nat.eq_zero_or_pos (tagBits fs.toList.length) with h | h
    · have := lt_two_pow_bitLength (fs.toList.length - 1)
      unfold tagBits at h
      rw [h] at this; omega
    · exact h
  obtain ⟨o, ho, hg⟩ := P.good hw
  obtain ⟨tg, ht, hgt⟩ := hg.tag
  have hkm : k ∈ fs.toList.map (·.1) := List.mem_map_of_mem (f := (·.1)) hk
  simp only [AV.fromOption, ho, lookup_of_get hw.2.1 hi, ha, AsmObj.assembleTag, ht, hgt.asm_ok k hkm, hg.layout,
    sum_layout hw hi, hgt.width, hidx, hg.width, asBv_mkAV hm]
  rw [createFromLayout_union htb hpos (by simp only [width]; omega) rfl rfl]
  simp only [AV.init, BV.ofNat_size, if_true, mkAV]
  congr 3
  rw [ofNat_val_of_lt hm, ofNat_val_of_lt hfit]
  simp

/-- `x == E.m`: the bits of `x` are the code of `m`. -/
theorem isMem_code (P : Process) {c : Nat} {ms : List EVal} (hw : WF (.enum c ms)) {m : EVal} (hm : m ∈ ms) {n : Nat} (hn : n < 2 ^ width (.enum c ms)) :
    isMem P.asm m (mkAV (.enum c ms) n) = .ok (n == encode (.enum c ms) (.enum m)) := by
  obtain ⟨o, ho, hg⟩ := P.good hw
  have hh : (Ty.enum c ms).Has (.enum m) := hm
  have hi : (Ty.enum c ms).isinst (.enum m) = true := (isinst_iff _ _).2 hh
  have he := (encode_spec _ hw _ hh).1
  simp only [mkAV, isMem, AV.eq, ho, hi, if_true, hg.assemble hw hh]
  rw [BV.ofNat_val, BV.ofNat_val, Nat.mod_eq_of_lt hn, Nat.mod_eq_of_lt he]

end Peak.RG
