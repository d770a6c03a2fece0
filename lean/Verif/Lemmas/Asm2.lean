import Verif.Model.Assembler2
import Verif.Lemmas.AsmGood
import Verif.Lemmas.AsmSum

namespace Peak
open Peak.Spec

theorem optionIndex_of_get {fs : Fields} (hn : (fs.toList.map (·.1)).Nodup) {i : Nat} {k : Key} {t : Ty}
    (hi : fs.toList[i]? = some (k, t)) : optionIndex fs k = i := by
  have hk : k ∈ fs.toList.map (·.1) := List.mem_map_of_mem (f := (·.1)) (List.mem_of_getElem? hi)
  obtain ⟨t', ht'⟩ := optionIndex_get fs k hk
  have e1 : (fs.toList.map (·.1))[optionIndex fs k]? = some k := by simp [ht']
  have e2 : (fs.toList.map (·.1))[i]? = some k := by simp [hi]
  obtain ⟨a1, a2⟩ := List.getElem?_eq_some_iff.1 e1
  obtain ⟨b1, b2⟩ := List.getElem?_eq_some_iff.1 e2
  exact hn.getElem_inj_iff.1 (a2.trans b2.symm)

theorem hasAt_iff {fs : Fields} (hn : (fs.toList.map (·.1)).Nodup) (k : Key) (v : Val) :
    fs.HasAt k v ↔ ∃ (i : Nat) (t : Ty), fs.toList[i]? = some (k, t) ∧ t.Has v := by
  constructor
  · intro h
    obtain ⟨t, ht⟩ := optionIndex_get fs k (hasAt_mem fs k v h)
    exact ⟨_, t, ht, hasAt_get fs k v t hn h ht⟩
  · rintro ⟨i, t, hi, hv⟩
    clear hn
    induction fs using Fields.rec (motive_1 := fun _ => True) generalizing i with
    | nil => simp [Fields.toList] at hi
    | cons k' t' fs _ ih =>
      simp only [Fields.HasAt]
      cases i with
      | zero =>
        simp only [Fields.toList, List.getElem?_cons_zero, Option.some.injEq, Prod.mk.injEq] at hi
        obtain ⟨rfl, rfl⟩ := hi
        exact Or.inl ⟨rfl, hv⟩
      | succ i => exact Or.inr (ih i (by simpa [Fields.toList] using hi))
    | _ => trivial

/-- What is known of an `assembler2` object. -/
structure Good2 (t : Ty) (o : Asm2) : Prop where
  width : o.width = width t
  asm_ok : ∀ v, t.Has v → o.asm v = .ok (BV.ofNat (Spec.width t) (encode t v))
  dsm_iff : ∀ b v, b.size = Spec.width t → (o.dsm b = .ok v ↔ Reads t b.val v)

theorem enum_lookups {ms : List EVal} (hw : WF (.enum 0 ms)) {a : EnumAcc} (ha : enumTables ms = .ok a) :
    (∀ e n, a.asm.lookup e = some n ↔ enumCode ms e = some n) ∧
    (∀ e n, a.dsm.lookup n = some e ↔ enumCode ms e = some n) := by
  obtain ⟨s1, s2⟩ := enumTables_spec ha hw.2.2
  constructor
  · intro e n
    rw [lookup_iff_mem, s1]
    intro n n' h h'; rw [s1] at h h'; rw [h] at h'; simpa using h'
  · intro e n
    rw [lookup_iff_mem, s2]
    intro e e' h h'; rw [s2] at h h'; exact enumCode_inj hw.2.2 h h'

theorem enum2_ok (c : Nat) {ms : List EVal} (hw : WF (.enum c ms)) : ∃ o, enum2 ms = .ok o ∧ Good2 (.enum c ms) o ∧
    ∀ b e, e ∈ ms → o.mtch b (.member e) = .ok (b.eqInt ((enumCode ms e).getD 0)) := by
  obtain ⟨a, ha, hne, hm, hnd, hwd⟩ := enum_request (ms := ms) hw
  obtain ⟨l1, l2⟩ := enum_lookups (ms := ms) hw ha
  refine ⟨_, by simp only [enum2, ha, if_neg hne]; rfl, ?_, ?_⟩
  · constructor
    · exact hwd
    · intro v hv
      cases v <;> simp only [Ty.Has] at hv
      next e =>
        obtain ⟨n, hn⟩ := enumCode_isSome hw.2.1 hv
        simp [(l1 e n).2 hn, encode, hn, hwd, Spec.width]
    · intro b v hb
      have hval : b.val % 2 ^ enumWidth ms = b.val := by
        rw [show enumWidth ms = b.size from hb.symm]; exact Nat.mod_eq_of_lt b.isLt
      constructor
      · intro h
        simp only at h
        split at h
        · next e he =>
          simp only [Except.ok.injEq] at h
          subst h
          simp only [Reads]
          rw [hval]; exact (l2 e _).1 he
        · simp at h
      · intro h
        cases v <;> simp only [Reads] at h
        rw [hval] at h
        simp [(l2 _ _).2 h]
  · intro b e he
    obtain ⟨n, hn⟩ := enumCode_isSome hw.2.1 he
    simp [(l1 e n).2 hn, hn]

/-- The assemblers of the fields, in order. -/
def Good2All : Fields → List (Key × Ty × Asm2) → Prop
  | .nil, [] => True
  | .cons k t fs, (k', t', o) :: l => k' = k ∧ t' = t ∧ t.build2 = .ok o ∧ Good2 t o ∧ Good2All fs l
  | _, _ => False

def strip2 (l : List (Key × Ty × Asm2)) : List (Key × Asm2) := l.map (fun x => (x.1, x.2.2))

theorem BV.or_shl {w base n opcode : Nat} (hn : base ≤ w) (ho : opcode < 2 ^ base) (hlt : opcode + 2 ^ base * n < 2 ^ w) :
    ((BV.ofNat w opcode).or ((BV.ofNat w n).shlInt base)) = BV.ofNat w (opcode + 2 ^ base * n) := by
  have hb : base % 2 ^ w = base := Nat.mod_eq_of_lt (Nat.lt_of_le_of_lt hn Nat.lt_two_pow_self)
  apply BV.ext
  · rfl
  · have h1 : n < 2 ^ w := by
      have : n ≤ 2 ^ base * n := Nat.le_mul_of_pos_left _ (Nat.two_pow_pos _)
      omega
    simp only [BV.or, BV.shlInt, BV.ofNat_size, BV.ofNat_val, hb]
    rw [Nat.mod_eq_of_lt h1, Nat.mod_eq_of_lt (by omega : opcode < 2 ^ w), Nat.shiftLeft_eq, Nat.mul_comm n,
      Nat.mod_eq_of_lt (by omega : 2 ^ base * n < 2 ^ w), ← or_shift ho, Nat.shiftLeft_eq, Nat.mul_comm n]

theorem asmRows2_spec : ∀ (fs : Fields) (l : List (Key × Ty × Asm2)) (vs : List Val) (base opcode w : Nat),
    Good2All fs l → WFs fs → fs.HasAll vs → opcode < 2 ^ base → base + sumWidths fs ≤ w →
    asmRows2 w (rows2 (strip2 l) base) vs (BV.ofNat w opcode) = .ok (BV.ofNat w (opcode + 2 ^ base * encodeAll fs vs))
  | .nil, l, vs, base, opcode, w, hg, _, hv, ho, hb => by
    cases l <;> simp only [Good2All] at hg
    cases vs <;> simp only [Fields.HasAll] at hv
    simp [strip2, rows2, asmRows2, encodeAll]
  | .cons k t fs, l, vs, base, opcode, w, hg, hw, hv, ho, hb => by
    cases l with
    | nil => simp only [Good2All] at hg
    | cons p l =>
      obtain ⟨k', t', o⟩ := p
      simp only [Good2All] at hg
      obtain ⟨rfl, rfl, _, hg, hgs⟩ := hg
      cases vs with
      | nil => simp only [Fields.HasAll] at hv
      | cons v vs =>
        simp only [Fields.HasAll] at hv
        simp only [sumWidths] at hb
        have he := (encode_spec _ hw.1 v hv.1).1
        have hlt := pow_add_lt ho he
        have ih := asmRows2_spec fs l vs (base + width t') (opcode + 2 ^ base * encode t' v) w hgs hw.2 hv.2
          hlt (by omega)
        have hz : extendToWidth (BV.ofNat (width t') (encode t' v)) w = .ok (BV.ofNat w (encode t' v)) := by
          unfold extendToWidth
          rw [if_neg (by simp; omega)]
          congr 1
          apply BV.ext
          · simp [BV.zext]; omega
          · simp only [BV.zext, BV.ofNat_size, BV.ofNat_val, Nat.mod_eq_of_lt he]
            rw [show width t' + (w - width t') = w by omega]
        simp only [strip2, List.map_cons, rows2, asmRows2, hg.asm_ok v hv.1, hg.width, encodeAll, hz] at ih ⊢
        rw [BV.or_shl (by omega) ho
          (Nat.lt_of_lt_of_le hlt (Nat.pow_le_pow_right (by decide) (by omega))), ih, Nat.mul_add, Nat.pow_add,
          Nat.mul_assoc, Nat.add_assoc]

theorem dsmRows2_spec : ∀ (fs : Fields) (l : List (Key × Ty × Asm2)) (vs : List Val) (base : Nat) (b : BV),
    Good2All fs l → base + sumWidths fs ≤ b.size →
    (dsmRows2 (rows2 (strip2 l) base) b = .ok vs ↔ ReadsAll fs (b.val / 2 ^ base) vs)
  | .nil, l, vs, base, b, hg, hb => by
    cases l <;> simp only [Good2All] at hg
    simp only [strip2, List.map_nil, rows2, dsmRows2, Except.ok.injEq]
    cases vs <;> simp [ReadsAll]
  | .cons k t fs, l, vs, base, b, hg, hb => by
    cases l with
    | nil => simp only [Good2All] at hg
    | cons p l =>
      obtain ⟨k', t', o⟩ := p
      simp only [Good2All] at hg
      obtain ⟨rfl, rfl, _, hg, hgs⟩ := hg
      simp only [sumWidths] at hb
      obtain ⟨f1, f2⟩ := slice_field (b := b) (base := base) (w := width t') (by omega)
      simp only [strip2, List.map_cons, rows2, dsmRows2, hg.width]
      have ih := fun vs => dsmRows2_spec fs l vs (base + width t') b hgs (by omega)
      rw [Nat.pow_add, ← Nat.div_div_eq_div_mul] at ih
      simp only [strip2] at ih
      have hd := fun v => hg.dsm_iff (b.slice base (base + width t')) v f1
      rw [f2] at hd
      cases vs with
      | nil =>
        simp only [ReadsAll, iff_false]
        split
        · simp
        · split <;> simp
      | cons v vs =>
        simp only [ReadsAll]
        rw [← reads_mod t' _ (width t') v (Nat.le_refl _), ← hd v, ← ih vs]
        split
        · next h => simp [h]
        · next v' h =>
          split
          · next h' => simp [h']
          · next vs' h' => simp [h, h']

theorem foldl_add_sum (l : List Nat) (a : Nat) : l.foldl (· + ·) a = a + l.sum := by
  induction l generalizing a with
  | nil => simp
  | cons x l ih => simp [ih, Nat.add_assoc]

theorem good2All_width : ∀ (fs : Fields) (l : List (Key × Ty × Asm2)), Good2All fs l →
    ((strip2 l).map (fun p => p.2.width)).sum = sumWidths fs
  | .nil, l, hg => by cases l <;> simp only [Good2All] at hg; rfl
  | .cons k t fs, l, hg => by
    cases l with
    | nil => simp only [Good2All] at hg
    | cons p l =>
      obtain ⟨k', t', o⟩ := p
      simp only [Good2All] at hg
      obtain ⟨rfl, rfl, _, hg, hgs⟩ := hg
      have := good2All_width fs l hgs
      simp only [strip2, List.map_cons, List.sum_cons, sumWidths, hg.width] at this ⊢
      rw [this]

theorem tuple2_width {fs : Fields} {l : List (Key × Ty × Asm2)} (hg : Good2All fs l) :
    (tuple2 (strip2 l)).width = sumWidths fs := by
  simp only [tuple2, foldl_add_sum, Nat.zero_add, good2All_width fs l hg]

theorem tuple2_good {c : Nat} {fs : Fields} {l : List (Key × Ty × Asm2)} (hw : WF (.prod c fs)) (hg : Good2All fs l) :
    Good2 (.prod c fs) (tuple2 (strip2 l)) where
  width := tuple2_width hg
  asm_ok v hv := by
    cases v <;> simp only [Ty.Has] at hv
    next vs =>
      have hwd := tuple2_width hg
      simp only [tuple2] at hwd ⊢
      rw [hwd, asmRows2_spec fs l vs 0 0 (sumWidths fs) hg hw.2 hv (by simp) (by omega)]
      simp [encode, Spec.width]
  dsm_iff b v hb := by
    simp only [Spec.width] at hb
    have h := fun vs => dsmRows2_spec fs l vs 0 b hg (by omega)
    simp only [Nat.pow_zero, Nat.div_one] at h
    simp only [tuple2]
    cases v <;> simp only [Reads]
    all_goals first
      | (rw [← h]; split <;> simp_all)
      | (simp only [iff_false]; split <;> simp)

/-! ### unions -/

def optsFrom (tw : Nat) : List (Key × Ty × Asm2) → Nat → List Opt2
  | [], _ => []
  | (k, t, o) :: l, tag => ⟨k, t, o, tag, tw, tw + o.width⟩ :: optsFrom tw l (tag + 1)

theorem scan2_spec (tw : Nat) : ∀ (l : List (Key × Ty × Asm2)) (tag : Nat) (acc : List Opt2) (pw : Nat),
    (∀ x ∈ l, x.2.1.build2 = .ok x.2.2) →
    (∀ r ∈ acc, r.ty.build2 = .ok r.obj ∧ r.lo = tw ∧ r.hi = tw + r.obj.width ∧ r.obj.width ≤ pw) →
    (acc.map (·.key) ++ l.map (·.1)).Nodup →
    scan2 tw l tag acc pw = .ok (acc ++ optsFrom tw l tag, l.foldl (fun m x => max m x.2.2.width) pw)
  | [], tag, acc, pw, _, _, _ => by simp [scan2, optsFrom]
  | (k, ty, o) :: l, tag, acc, pw, hl, hacc, hnd => by
    have hk : acc.any (fun r => r.key == k) = false := by
      rw [Bool.eq_false_iff]
      intro h
      obtain ⟨r, hr, hr'⟩ := List.any_eq_true.1 h
      have hr' : r.key = k := by simpa using hr'
      have := (List.nodup_append.1 hnd).2.2 r.key (List.mem_map_of_mem hr) k (by simp)
      exact this hr'
    have ho := hl (k, ty, o) (by simp)
    simp only at ho
    have hnd' : ∀ r : Opt2, r.key = k → ((acc ++ [r]).map (·.key) ++ l.map (·.1)).Nodup := by
      intro r hr; simpa [hr] using hnd
    simp only [scan2, hk, Bool.false_eq_true, if_false]
    split
    · rw [scan2_spec tw l (tag + 1) _ _ (fun x hx => hl x (by simp [hx])) ?_ (hnd' _ rfl)]
      · simp [optsFrom]
      · intro r hr
        rcases List.mem_append.1 hr with hr | hr
        · obtain ⟨a1, a2, a3, a4⟩ := hacc r hr
          exact ⟨a1, a2, a3, by omega⟩
        · simp only [List.mem_singleton] at hr
          subst hr
          exact ⟨ho, rfl, rfl, by simp only; omega⟩
    · next r hr =>
      have hrt : r.ty = ty := by simpa using (List.find?_some hr :)
      obtain ⟨a1, a2, a3, a4⟩ := hacc r (List.mem_of_find?_eq_some hr)
      rw [hrt, ho, Except.ok.injEq] at a1
      rw [scan2_spec tw l (tag + 1) _ _ (fun x hx => hl x (by simp [hx])) ?_ (hnd' _ rfl)]
      · simp only [optsFrom, List.append_assoc, List.singleton_append, List.foldl_cons, a2, a3, ← a1]
        rw [Nat.max_eq_left (by rw [a1]; exact a4)]
      · intro r' hr'
        rcases List.mem_append.1 hr' with hr' | hr'
        · exact hacc r' hr'
        · simp only [List.mem_singleton] at hr'
          subst hr'
          simp only
          rw [← a1]
          exact ⟨ho, a2, by rw [a3, a1], by rw [a1]; exact a4⟩

theorem optsFrom_key (tw : Nat) : ∀ (l : List (Key × Ty × Asm2)) (t0 i : Nat) (k : Key) (t : Ty) (o : Asm2),
    (l.map (·.1)).Nodup → l[i]? = some (k, t, o) →
    (optsFrom tw l t0).find? (fun r => r.key == k) = some ⟨k, t, o, t0 + i, tw, tw + o.width⟩
  | [], t0, i, k, t, o, _, h => by simp at h
  | (k', t', o') :: l, t0, i, k, t, o, hn, h => by
    cases i with
    | zero =>
      simp only [List.getElem?_cons_zero, Option.some.injEq, Prod.mk.injEq] at h
      obtain ⟨rfl, rfl, rfl⟩ := h
      simp [optsFrom]
    | succ i =>
      simp only [List.getElem?_cons_succ] at h
      simp only [List.map_cons, List.nodup_cons] at hn
      have hne : (k' == k) = false := by
        rw [beq_eq_false_iff_ne]
        intro he
        exact hn.1 (he ▸ List.mem_map_of_mem (f := (·.1)) (List.mem_of_getElem? h))
      simp only [optsFrom, List.find?_cons, hne]
      rw [optsFrom_key tw l (t0 + 1) i k t o hn.2 h]
      congr 2; omega

theorem optsFrom_tag (tw : Nat) : ∀ (l : List (Key × Ty × Asm2)) (t0 x : Nat),
    (optsFrom tw l t0).find? (fun r => r.tag == x) =
      if x < t0 then none else (l[x - t0]?).map (fun p => ⟨p.1, p.2.1, p.2.2, x, tw, tw + p.2.2.width⟩)
  | [], t0, x => by simp [optsFrom]
  | (k', t', o') :: l, t0, x => by
    simp only [optsFrom, List.find?_cons]
    by_cases hx : t0 = x
    · subst hx; simp
    · have : (t0 == x) = false := by simpa using hx
      simp only [this]
      rw [optsFrom_tag tw l (t0 + 1) x]
      by_cases hlt : x < t0
      · rw [if_pos (by omega), if_pos hlt]
      · rw [if_neg (by omega), if_neg hlt, show x - t0 = (x - (t0 + 1)) + 1 by omega, List.getElem?_cons_succ]

theorem good2All_get : ∀ (fs : Fields) (l : List (Key × Ty × Asm2)), Good2All fs l → ∀ (i : Nat) (k : Key) (t : Ty),
    fs.toList[i]? = some (k, t) ↔ ∃ o, l[i]? = some (k, t, o)
  | .nil, l, hg, i, k, t => by
    cases l <;> simp only [Good2All] at hg
    simp [Fields.toList]
  | .cons k0 t0 fs, l, hg, i, k, t => by
    cases l with
    | nil => simp only [Good2All] at hg
    | cons p l =>
      obtain ⟨k', t', o⟩ := p
      simp only [Good2All] at hg
      obtain ⟨rfl, rfl, _, _, hgs⟩ := hg
      cases i with
      | zero =>
        simp only [Fields.toList, List.getElem?_cons_zero, Option.some.injEq, Prod.mk.injEq]
        constructor
        · rintro ⟨rfl, rfl⟩; exact ⟨o, rfl, rfl, rfl⟩
        · rintro ⟨o', h1, h2, _⟩; exact ⟨h1, h2⟩
      | succ i => simpa [Fields.toList] using good2All_get fs l hgs i k t

theorem good2All_mem : ∀ (fs : Fields) (l : List (Key × Ty × Asm2)), Good2All fs l → ∀ x ∈ l,
    x.2.1.build2 = .ok x.2.2 ∧ Good2 x.2.1 x.2.2
  | .nil, l, hg, x, hx => by
    cases l <;> simp only [Good2All] at hg
    simp at hx
  | .cons k0 t0 fs, l, hg, x, hx => by
    cases l with
    | nil => simp only [Good2All] at hg
    | cons p l =>
      obtain ⟨k', t', o⟩ := p
      simp only [Good2All] at hg
      obtain ⟨rfl, rfl, h1, h2, hgs⟩ := hg
      rcases List.mem_cons.1 hx with rfl | hx
      · exact ⟨h1, h2⟩
      · exact good2All_mem fs l hgs x hx

theorem good2All_strip : ∀ (fs : Fields) (l : List (Key × Ty × Asm2)), Good2All fs l →
    l.map (fun x => (x.1, x.2.1)) = fs.toList
  | .nil, l, hg => by
    cases l <;> simp only [Good2All] at hg
    rfl
  | .cons k0 t0 fs, l, hg => by
    cases l with
    | nil => simp only [Good2All] at hg
    | cons p l =>
      obtain ⟨k', t', o⟩ := p
      simp only [Good2All] at hg
      obtain ⟨rfl, rfl, h1, h2, hgs⟩ := hg
      simp [Fields.toList, good2All_strip fs l hgs]

theorem good2All_max : ∀ (fs : Fields) (l : List (Key × Ty × Asm2)) (m : Nat), Good2All fs l →
    l.foldl (fun m x => max m x.2.2.width) m = max m (maxWidth fs)
  | .nil, l, m, hg => by
    cases l <;> simp only [Good2All] at hg
    simp [maxWidth]
  | .cons k0 t0 fs, l, m, hg => by
    cases l with
    | nil => simp only [Good2All] at hg
    | cons p l =>
      obtain ⟨k', t', o⟩ := p
      simp only [Good2All] at hg
      obtain ⟨rfl, rfl, h1, h2, hgs⟩ := hg
      simp only [List.foldl_cons, good2All_max fs l _ hgs, maxWidth, h2.width]
      omega

/-- The object built by `sum2`, with its table in closed form. -/
theorem sum2_eq {c : Nat} {fs : Fields} {l : List (Key × Ty × Asm2)} (hw : WF (.sum c fs)) (hg : Good2All fs l) :
    scan2 (bitLength (l.length - 1)) l 0 [] 0 = .ok (optsFrom (tagBits fs.toList.length) l 0, maxWidth fs) ∧
      bitLength (l.length - 1) = tagBits fs.toList.length ∧ optsFrom (tagBits fs.toList.length) l 0 ≠ [] ∧
      (l.map (·.1)).Nodup := by
  have hstrip := good2All_strip fs l hg
  have hlen : l.length = fs.toList.length := by rw [← hstrip, List.length_map]
  have hnd : (l.map (·.1)).Nodup := by
    have := hw.2.1
    rw [← hstrip, List.map_map] at this
    exact this
  have htw : bitLength (l.length - 1) = tagBits fs.toList.length := by rw [hlen]; rfl
  refine ⟨?_, htw, ?_, hnd⟩
  · rw [scan2_spec _ l 0 [] 0 (fun x hx => (good2All_mem fs l hg x hx).1) (by simp) (by simpa using hnd),
      good2All_max fs l 0 hg, htw]
    simp
  · cases l with
    | nil =>
      exfalso
      have := hw.1
      rw [← hstrip] at this; simp at this
    | cons p l => simp [optsFrom]

theorem sum2_ok {c : Nat} {fs : Fields} {l : List (Key × Ty × Asm2)} (hw : WF (.sum c fs)) (hg : Good2All fs l) :
    ∃ o, sum2 l = .ok o ∧ Good2 (.sum c fs) o := by
  obtain ⟨h1, h2, h3, hnd⟩ := sum2_eq hw hg
  refine ⟨_, by simp only [sum2, h1, if_neg h3]; rfl, ?_⟩
  constructor
  · simp [h2, Spec.width]
  · intro v hv
    cases v <;> simp only [Ty.Has] at hv
    next k v =>
      obtain ⟨i, t, hi, hvt⟩ := (hasAt_iff hw.2.1 k v).1 hv
      have hidx := optionIndex_of_get hw.2.1 hi
      obtain ⟨o, ho⟩ := (good2All_get fs l hg i k t).1 hi
      have hwt := wfs_mem fs hw.2.2 i k t hi
      have hgo := (good2All_mem fs l hg _ (List.mem_of_getElem? ho)).2
      simp only at hgo
      have hle := width_le_maxWidth fs i k t hi
      have hfit := lt_tagBits (List.getElem?_eq_some_iff.1 hi).1
      have he := (encode_spec t hwt v hvt).1
      simp only [optsFrom_key _ l 0 i k t o hnd ho, hgo.asm_ok v hvt, h2, Nat.zero_add]
      have hz : extendToWidth (BV.ofNat (width t) (encode t v)) (maxWidth fs) =
          .ok (BV.ofNat (maxWidth fs) (encode t v)) := by
        unfold extendToWidth
        rw [if_neg (by simp; omega)]
        congr 1
        apply BV.ext
        · simp [BV.zext]; omega
        · simp only [BV.zext, BV.ofNat_size, BV.ofNat_val, Nat.mod_eq_of_lt he]
          rw [show width t + (maxWidth fs - width t) = maxWidth fs by omega]
      simp only [hz, BV.concat, BV.ofNat_size, if_true, Spec.width, encode, hidx,
        encodeAt_get fs k v t (by rw [hidx]; exact hi), BV.ofNat_val]
      congr 1
      have he' : encode t v < 2 ^ maxWidth fs := Nat.lt_of_lt_of_le he (Nat.pow_le_pow_right (by decide) hle)
      rw [Nat.mod_eq_of_lt hfit, Nat.mod_eq_of_lt he', Nat.mul_comm]
  · intro b v hb
    simp only [Spec.width] at hb
    simp only [h2]
    rw [optsFrom_tag, if_neg (by omega), Nat.sub_zero]
    obtain ⟨f1, f2⟩ := slice_field (b := b) (base := 0) (w := tagBits fs.toList.length) (by omega)
    rw [Nat.zero_add] at f1 f2
    rw [f2, Nat.pow_zero, Nat.div_one]
    cases hl : l[b.val % 2 ^ tagBits fs.toList.length]? with
    | none =>
      simp only [Option.map_none, reduceCtorEq, false_iff]
      intro hr
      cases v <;> simp only [Reads] at hr
      next k v =>
        obtain ⟨t, ht, _⟩ := (readsAt_iff fs _ k _ v).1 hr
        obtain ⟨o, ho⟩ := (good2All_get fs l hg _ k t).1 ht
        rw [hl] at ho; simp at ho
    | some p =>
      obtain ⟨k', t', o'⟩ := p
      have hfs := (good2All_get fs l hg _ k' t').2 ⟨o', hl⟩
      have hgo := (good2All_mem fs l hg _ (List.mem_of_getElem? hl)).2
      simp only at hgo
      have hle := width_le_maxWidth fs _ k' t' hfs
      simp only [Option.map_some, hgo.width]
      obtain ⟨g1, g2⟩ := slice_field (b := b) (base := tagBits fs.toList.length) (w := width t') (by omega)
      have hd := fun v => hgo.dsm_iff _ v g1
      rw [g2] at hd
      have hd' : ∀ v, o'.dsm (b.slice (tagBits fs.toList.length) (tagBits fs.toList.length + width t')) = .ok v ↔
          Reads t' (b.val / 2 ^ tagBits fs.toList.length) v := by
        intro v; rw [hd v, reads_mod t' _ _ v (Nat.le_refl _)]
      have hra : ∀ k v, Reads (.sum c fs) b.val (.sum k v) ↔
          k = k' ∧ Reads t' (b.val / 2 ^ tagBits fs.toList.length) v := by
        intro k v
        simp only [Reads]
        rw [readsAt_iff]
        constructor
        · rintro ⟨t, ht, hr⟩
          rw [hfs] at ht
          simp only [Option.some.injEq, Prod.mk.injEq] at ht
          obtain ⟨rfl, rfl⟩ := ht
          exact ⟨rfl, hr⟩
        · rintro ⟨rfl, hr⟩; exact ⟨t', hfs, hr⟩
      cases v with
      | sum k v =>
        rw [hra, ← hd' v]
        split
        · next h => simp [h]
        · next v' h => simp [h]; grind
      | _ =>
        simp only [Reads, iff_false]
        split <;> simp

/-! ### all types -/

mutual
theorem build2_ok : ∀ t : Ty, WF t → ∃ o, t.build2 = .ok o ∧ Good2 t o
  | .bv c w, _ => by
    refine ⟨_, by rw [Ty.build2], rfl, ?_, ?_⟩
    · intro v hv; cases v <;> simp only [Ty.Has] at hv; rfl
    · intro b v hb
      cases v <;> simp [field2, Reads]
      exact eq_comm
  | .bit c, _ => by
    refine ⟨_, by rw [Ty.build2], rfl, ?_, ?_⟩
    · intro v hv; cases v <;> simp only [Ty.Has] at hv; rfl
    · intro b v hb
      have := b.isLt
      simp only [Spec.width] at hb
      rw [hb] at this
      cases v <;> simp [field2, Reads]
      next x =>
        rcases (by omega : b.val = 0 ∨ b.val = 1) with h | h <;> rw [h] <;> cases x <;> simp
  | .enum c ms, hw => by
    obtain ⟨o, h1, h2, _⟩ := enum2_ok c hw
    exact ⟨o, by rw [Ty.build2]; exact h1, h2⟩
  | .prod c fs, hw => by
    obtain ⟨l, h1, h2⟩ := build2All_ok fs hw.2
    exact ⟨_, by rw [Ty.build2, h1]; rfl, tuple2_good hw h2⟩
  | .sum c fs, hw => by
    obtain ⟨l, h1, h2⟩ := build2All_ok fs hw.2.2
    obtain ⟨o, h3, h4⟩ := sum2_ok hw h2
    exact ⟨o, by rw [Ty.build2, h1]; exact h3, h4⟩
theorem build2All_ok : ∀ fs : Fields, WFs fs → ∃ l, fs.build2 = .ok l ∧ Good2All fs l
  | .nil, _ => ⟨[], by rw [Fields.build2], trivial⟩
  | .cons k t fs, hw => by
    obtain ⟨o, h1, h2⟩ := build2_ok t hw.1
    obtain ⟨l, h3, h4⟩ := build2All_ok fs hw.2
    exact ⟨(k, t, o) :: l, by rw [Fields.build2, h1, h3], rfl, rfl, h1, h2, h4⟩
end

end Peak
