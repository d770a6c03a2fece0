import Verif.Spec.AutoLayout
import Verif.Props.AutoAssembler
/-!
# C20: the layout of the legacy assembler
-/

namespace Peak.Auto
open Peak.Spec

mutual
theorem layout_ok : ∀ (t : Ty), WF t → NoBitOption t → ∃ l, layout t = .ok l
  | .bv _ _, _, _ => ⟨_, rfl⟩
  | .bit _, _, _ => ⟨_, rfl⟩
  | .enum c ms, hw, _ => by
    obtain ⟨o, ho, -⟩ := autoEnum_good c hw
    exact ⟨_, by simp only [layout, ho]; rfl⟩
  | .prod c fs, hw, hb => by
    obtain ⟨l, hl⟩ := fields_ok fs 0 hw.2 hb
    exact ⟨_, by simp only [layout, hl, Except.map]; rfl⟩
  | .sum c fs, hw, hb => by
    obtain ⟨l, hl⟩ := options_ok fs (bitLength fs.toList.length) hw.2.2 hb.2
    exact ⟨_, by simp only [layout, hl, Except.map]; rfl⟩
theorem fields_ok : ∀ (fs : Fields) (base : Nat), WFs fs → NoBitOptions fs → ∃ l, fieldsFrom base fs = .ok l
  | .nil, _, _, _ => ⟨_, rfl⟩
  | .cons k t fs, base, hw, hb => by
    obtain ⟨o, ho, -⟩ := generate_good t hw.1 hb.1
    obtain ⟨l, hl⟩ := layout_ok t hw.1 hb.1
    obtain ⟨r, hr⟩ := fields_ok fs (base + o.width) hw.2 hb.2
    exact ⟨_, by simp only [fieldsFrom, ho, hl, hr]; rfl⟩
theorem options_ok : ∀ (fs : Fields) (tw : Nat), WFs fs → NoBitOptions fs → ∃ l, optionsAt tw fs = .ok l
  | .nil, _, _, _ => ⟨_, rfl⟩
  | .cons k t fs, tw, hw, hb => by
    obtain ⟨o, ho, -⟩ := generate_good t hw.1 hb.1
    obtain ⟨l, hl⟩ := layout_ok t hw.1 hb.1
    obtain ⟨r, hr⟩ := options_ok fs tw hw.2 hb.2
    exact ⟨_, by simp only [optionsAt, ho, hl, hr]; rfl⟩
end

theorem generateAll_cons {k : Key} {t : Ty} {fs : Fields} {l : List (Key × AutoObj)} (h : generateAll (.cons k t fs) = .ok l) :
    ∃ o r, generateAssembler t = .ok o ∧ generateAll fs = .ok r ∧ l = (k, o) :: r := by
  simp only [generateAll] at h
  split at h
  · cases h
  · next o ho =>
    split at h
    · cases h
    · next r hr =>
      cases h
      exact ⟨o, r, ho, hr, rfl⟩

/-- The parts of a product. -/
theorem fields_part : ∀ (fs : Fields) (l : List (Key × AutoObj)) (vs : List Val) (base opcode w : Nat) (ls : Lays) (b : BV),
    AGoodAll fs l → generateAll fs = .ok l → fs.HasAll vs → opcode < 2 ^ base → base + ((objs l).map (·.width)).sum ≤ w → (fs.toList.map (·.1)).Nodup →
    fieldsFrom base fs = .ok ls → autoAsmRows w (autoRows (objs l) base) vs (BV.ofNat w opcode) = .ok b →
    ∀ (i : Nat) (k : Key) (t : Ty) (v : Val), fs.toList[i]? = some (k, t) → vs[i]? = some v →
      ∃ lo sub ot et, ls.get k = some (lo, lo + ot.width, sub) ∧ layout t = .ok sub ∧ generateAssembler t = .ok ot ∧ ot.asm v = .ok et ∧
        lo + ot.width ≤ base + ((objs l).map (·.width)).sum ∧ b.val / 2 ^ lo % 2 ^ ot.width = et.toNat
  | .nil, l, vs, base, opcode, w, ls, b, hg, hl, hv, ho, hb, hn, hf, ha, i, k, t, v, hi, _ => by simp [Fields.toList] at hi
  | .cons k' t' fs, l, vs, base, opcode, w, ls, b, hg, hl, hv, ho, hb, hn, hf, ha, i, k, t, v, hi, hvi => by
    obtain ⟨o, r, g1, g2, rfl⟩ := generateAll_cons hl
    cases vs with
    | nil => simp only [Fields.HasAll] at hv
    | cons v0 vs =>
      have hg0 := hg
      obtain ⟨-, h1, h2⟩ := hg
      obtain ⟨n, hnn, ⟨e, he1, he2, -⟩, -⟩ := h1.rt v0 hv.1
      simp only [fieldsFrom, g1] at hf
      cases hlt : layout t' with
      | error e => simp [hlt] at hf
      | ok lt =>
        simp only [hlt] at hf
        cases hrf : fieldsFrom (base + o.width) fs with
        | error e => simp [hrf] at hf
        | ok rs =>
          simp only [hrf, Except.ok.injEq] at hf
          subst hf
          simp only [objs, List.map_cons, List.sum_cons] at hb ⊢
          have hop := pow_add_lt ho hnn
          simp only [objs, List.map_cons, autoRows, autoAsmRows, he1, he2] at ha
          rw [BV.or_shl (by omega) ho (Nat.lt_of_lt_of_le hop (Nat.pow_le_pow_right (by decide) (by omega)))] at ha
          obtain ⟨N, hN, hc, -⟩ := rows_rt fs r vs (base + o.width) (opcode + 2 ^ base * n) w h2 hv.2 hop (by simp only [objs]; omega)
          simp only [objs] at hN hc
          rw [ha] at hc
          simp only [Except.ok.injEq] at hc
          simp only [Fields.toList, List.map_cons, List.nodup_cons] at hn
          cases i with
          | zero =>
            simp only [Fields.toList, List.getElem?_cons_zero, Option.some.injEq, Prod.mk.injEq] at hi hvi
            obtain ⟨rfl, rfl⟩ := hi
            subst hvi
            refine ⟨base, lt, o, e, by simp [Lays.get], hlt, g1, he1, by omega, ?_⟩
            have hfit : opcode + 2 ^ base * n + 2 ^ (base + o.width) * N < 2 ^ w :=
              Nat.lt_of_lt_of_le (pow_add_lt hop hN) (Nat.pow_le_pow_right (by decide) (by omega))
            rw [hc, BV.ofNat_val_of_lt hfit, he2, Nat.pow_add, Nat.mul_assoc, Nat.add_assoc, ← Nat.mul_add, Nat.add_mul_div_left _ _ (Nat.two_pow_pos _),
              Nat.div_eq_of_lt ho, Nat.zero_add, Nat.add_mul_mod_self_left, Nat.mod_eq_of_lt hnn]
          | succ i =>
            simp only [Fields.toList, List.getElem?_cons_succ] at hi hvi
            obtain ⟨lo, sub, ot, et, a1, a2, a3, a4, a5, a6⟩ := fields_part fs r vs (base + o.width) (opcode + 2 ^ base * n) w rs b h2 g2 hv.2 hop
              (by simp only [objs]; omega) hn.2 hrf ha i k t v hi hvi
            have hk : k ≠ k' := by
              rintro rfl
              exact hn.1 (List.mem_map.mpr ⟨_, List.mem_of_getElem? hi, rfl⟩)
            simp only [objs] at a5
            exact ⟨lo, sub, ot, et, by simp [Lays.get, hk, a1], a2, a3, a4, by omega, a6⟩

theorem prod_part {c : Nat} {fs : Fields} {vs : List Val} (hw : WF (.prod c fs)) (hb : NoBitOption (.prod c fs)) (hv : (Ty.prod c fs).Has (.prod vs))
    {o : AutoObj} (ho : generateAssembler (.prod c fs) = .ok o) {e : Enc} (he : o.asm (.prod vs) = .ok e) {l : Lay} (hl : layout (.prod c fs) = .ok l)
    {i : Nat} {k : Key} {t : Ty} {v : Val} (hi : fs.toList[i]? = some (k, t)) (hvi : vs[i]? = some v) :
    ∃ ls lo sub ot et, l = .dict ls ∧ ls.get k = some (lo, lo + ot.width, sub) ∧ layout t = .ok sub ∧ generateAssembler t = .ok ot ∧ ot.asm v = .ok et ∧
        lo + ot.width ≤ o.width ∧ e.toNat / 2 ^ lo % 2 ^ ot.width = et.toNat := by
  obtain ⟨r, hr, hg⟩ := generateAll_good fs hw.2 hb
  obtain ⟨hws, -⟩ := autoWidths_good fs r hg
  have hw' : autoWidth (.prod c fs) = .ok ((objs r).map (·.width)).sum := by simp only [autoWidth, hws]
  simp only [generateAssembler, hw', hr, autoProduct] at ho
  rw [if_pos (by simp [objs]), Except.ok.injEq] at ho
  subst ho
  obtain ⟨ls, hls⟩ := fields_ok fs 0 hw.2 hb
  simp only [layout, hls, Except.map, Except.ok.injEq] at hl
  subst hl
  simp only at he
  split at he
  · cases he
  · next b hbb =>
    cases he
    obtain ⟨lo, sub, ot, et, a1, a2, a3, a4, a5, a6⟩ := fields_part fs r vs 0 0 ((objs r).map (·.width)).sum ls b hg hr hv (by simp) (by omega) hw.1 hls hbb i k t v hi hvi
    exact ⟨ls, lo, sub, ot, et, rfl, a1, a2, a3, a4, by simpa using a5, a6⟩

theorem options_get {tw : Nat} : ∀ {fs : Fields} {ls : Lays} {k : Key} {t : Ty}, (fs.toList.map (·.1)).Nodup → (k, t) ∈ fs.toList → optionsAt tw fs = .ok ls →
    ∃ ot sub, generateAssembler t = .ok ot ∧ layout t = .ok sub ∧ ls.get k = some (tw, tw + ot.width, sub)
  | .nil, _, _, _, _, hk, _ => by simp [Fields.toList] at hk
  | .cons k' t' fs, ls, k, t, hn, hk, h => by
    simp only [optionsAt] at h
    split at h
    · next o l ho hl =>
      split at h
      · next r hr =>
        cases h
        simp only [Fields.toList, List.map_cons, List.nodup_cons] at hn hk
        rcases List.mem_cons.mp hk with e | hk'
        · cases e
          exact ⟨o, l, ho, hl, by simp [Lays.get]⟩
        · obtain ⟨ot, sub, a1, a2, a3⟩ := options_get hn.2 hk' hr
          have hne : k ≠ k' := by
            rintro rfl
            exact hn.1 (List.mem_map.mpr ⟨_, hk', rfl⟩)
          exact ⟨ot, sub, a1, a2, by simp [Lays.get, hne, a3]⟩
      · cases h
    · cases h
    · cases h

theorem generateAll_get : ∀ {fs : Fields} {l : List (Key × AutoObj)} {k : Key} {t : Ty}, generateAll fs = .ok l → (k, t) ∈ fs.toList →
    ∃ o, (k, o) ∈ l ∧ generateAssembler t = .ok o
  | .nil, _, _, _, _, h => by simp [Fields.toList] at h
  | .cons k' t' fs, l, k, t, h, hk => by
    obtain ⟨o, r, h1, h2, rfl⟩ := generateAll_cons h
    simp only [Fields.toList] at hk
    rcases List.mem_cons.mp hk with e | hk'
    · cases e
      exact ⟨o, by simp, h1⟩
    · obtain ⟨o', a1, a2⟩ := generateAll_get h2 hk'
      exact ⟨o', by simp [a1], a2⟩

theorem generateAll_fst : ∀ {fs : Fields} {l : List (Key × AutoObj)}, generateAll fs = .ok l → l.map (·.1) = fs.toList.map (·.1)
  | .nil, l, h => by cases h; rfl
  | .cons k t fs, l, h => by
    obtain ⟨o, r, h1, h2, rfl⟩ := generateAll_cons h
    simp [Fields.toList, generateAll_fst h2]

theorem mem_unique {α : Type} : ∀ {l : List (Key × α)} {k : Key} {a b : α}, (l.map (·.1)).Nodup → (k, a) ∈ l → (k, b) ∈ l → a = b
  | [], _, _, _, _, h, _ => by simp at h
  | (k', c) :: l, k, a, b, hn, ha, hb => by
    simp only [List.map_cons, List.nodup_cons] at hn
    rcases List.mem_cons.mp ha with e | ha'
    · cases e
      rcases List.mem_cons.mp hb with e | hb'
      · cases e; rfl
      · exact absurd (List.mem_map.mpr ⟨_, hb', rfl⟩) hn.1
    · rcases List.mem_cons.mp hb with e | hb'
      · cases e
        exact absurd (List.mem_map.mpr ⟨_, ha', rfl⟩) hn.1
      · exact mem_unique hn.2 ha' hb'

theorem sum_part {c : Nat} {fs : Fields} {k : Key} {t : Ty} {v : Val} (hw : WF (.sum c fs)) (hb : NoBitOption (.sum c fs)) (hk : (k, t) ∈ fs.toList) (hv : t.Has v)
    {o : AutoObj} (ho : generateAssembler (.sum c fs) = .ok o) {e : Enc} (he : o.asm (.sum k v) = .ok e) {l : Lay} (hl : layout (.sum c fs) = .ok l) :
    ∃ ls lo sub ot et, l = .dict ls ∧ ls.get k = some (lo, lo + ot.width, sub) ∧ layout t = .ok sub ∧ generateAssembler t = .ok ot ∧ ot.asm v = .ok et ∧
        lo + ot.width ≤ o.width ∧ e.toNat / 2 ^ lo % 2 ^ ot.width = et.toNat := by
  obtain ⟨r, hr, hg⟩ := generateAll_good fs hw.2.2 hb.2
  obtain ⟨hws, hlen⟩ := autoWidths_good fs r hg
  obtain ⟨i, hi⟩ := List.getElem?_of_mem hk
  have hv' : (Ty.sum c fs).Has (.sum k v) := (hasAt_iff hw.2.1 k v).2 ⟨i, t, hi, hv⟩
  have hw' : autoWidth (.sum c fs) = .ok (((objs r).map (·.width)).foldl max 0 + bitLength fs.toList.length) := by
    simp only [autoWidth, hws]
    cases r with
    | nil =>
      have : fs.toList = [] := List.eq_nil_of_length_eq_zero (by simpa using hlen.symm)
      exact absurd this hw.1
    | cons p r => rfl
  obtain ⟨ls, hls⟩ := options_ok fs (bitLength fs.toList.length) hw.2.2 hb.2
  simp only [layout, hls, Except.map, Except.ok.injEq] at hl
  subst hl
  have hfit : ∀ q ∈ r, q.2.width ≤ ((objs r).map (·.width)).foldl max 0 := by
    intro q hq
    apply (foldl_max_ge _ 0).2
    exact List.mem_map_of_mem (f := (·.width)) (List.mem_map_of_mem (f := (·.2)) hq)
  obtain ⟨ot, sub, b1, b2, b3⟩ := options_get hw.2.1 hk hls
  obtain ⟨ot', c1, c2⟩ := generateAll_get hr hk
  rw [b1] at c2
  cases c2
  have htl : r.length < 2 ^ bitLength fs.toList.length := by rw [hlen]; exact lt_two_pow_bitLength _
  obtain ⟨t2, o2, j, d1, d2, d3, d4, d5, d6, d7⟩ := optsOf_find (bitLength fs.toList.length) fs r 0 k v hg hw.2.1 hv' (by omega)
  have e1 : t2 = t := mem_unique hw.2.1 d1 hk
  have e2 : o2 = ot := mem_unique (by rw [generateAll_fst hr]; exact hw.2.1) d2 c1
  subst e1 e2
  simp only [Nat.zero_add] at d6
  obtain ⟨n, hn, ⟨et, f1, f2, f3⟩, -⟩ := d4.rt v hv
  have hnb : ¬ IsBit t2 := by
    intro hbit
    cases t2 with
    | bit c' => exact hb.1 k c' hk
    | _ => exact hbit
  have f4 := f3 hnb
  subst f4
  have how := hfit _ c1
  simp only at how
  have hopts : autoOpts (bitLength fs.toList.length) (((objs r).map (·.width)).foldl max 0 + bitLength fs.toList.length) r 0 = .ok (optsOf (bitLength fs.toList.length) r 0) :=
    autoOpts_eq _ _ r 0 (fun q hq => by have := hfit q hq; omega)
  simp only [generateAssembler, hw', hr, autoSum, hlen, hopts, Except.ok.injEq] at ho
  subst ho
  generalize ((objs r).map (·.width)).foldl max 0 = pw at *
  generalize bitLength fs.toList.length = tw at *
  refine ⟨ls, tw, sub, o2, _, rfl, b3, b2, b1, f1, by simp only; omega, ?_⟩
  have hj : j < 2 ^ tw := by omega
  have hlt : j + 2 ^ tw * n < 2 ^ (pw + tw) := by
    have := pow_add_lt hj (Nat.lt_of_lt_of_le hn (Nat.pow_le_pow_right (by decide) how))
    rwa [Nat.add_comm tw] at this
  have x1 : (BV.ofNat (pw + tw) 0).or ((BV.ofNat tw j).zext (pw + tw - tw)) = BV.ofNat (pw + tw) j := by
    apply BV.ext
    · rfl
    · simp only [BV.or, BV.zext, BV.ofNat_size, BV.ofNat_val, Nat.zero_mod, Nat.zero_or]
      rw [Nat.mod_eq_of_lt hj, show tw + (pw + tw - tw) = pw + tw by omega, Nat.mod_mod]
  have x2 : (BV.ofNat o2.width n).zext (pw + tw - (BV.ofNat o2.width n).size) = BV.ofNat (pw + tw) n := by
    apply BV.ext
    · simp only [BV.zext, BV.ofNat_size]; omega
    · simp only [BV.zext, BV.ofNat_size, BV.ofNat_val, Nat.mod_eq_of_lt hn]
      rw [show o2.width + (pw + tw - o2.width) = pw + tw by omega]
  simp only [d6, f1, x1, x2] at he
  rw [BV.or_shl (by omega) hj hlt] at he
  cases he
  simp only [Enc.toNat, BV.ofNat_val_of_lt hlt, BV.ofNat_val_of_lt hn]
  rw [Nat.add_mul_div_left _ _ (Nat.two_pow_pos _), Nat.div_eq_of_lt hj, Nat.zero_add, Nat.mod_eq_of_lt hn]

theorem mul_mod_div (x : Nat) {a b w : Nat} (h : a + b ≤ w) : x % 2 ^ w / 2 ^ a % 2 ^ b = x / 2 ^ a % 2 ^ b := by
  apply Nat.eq_of_testBit_eq
  intro i
  simp only [Nat.testBit_mod_two_pow, Nat.testBit_div_two_pow]
  by_cases hi : i < b
  · have : i + a < w := by omega
    simp [hi, this]
  · simp [hi]

theorem noBit_mem : ∀ {fs : Fields} {k : Key} {t : Ty}, NoBitOptions fs → (k, t) ∈ fs.toList → NoBitOption t
  | .nil, _, _, _, h => by simp [Fields.toList] at h
  | .cons k' t' fs, k, t, hb, h => by
    simp only [Fields.toList] at h
    rcases List.mem_cons.mp h with e | h'
    · cases e; exact hb.1
    · exact noBit_mem hb.2 h'

theorem part_has {t : Ty} {v : Val} {p : List Key} {t' : Ty} {v' : Val} (hp : Part t v p t' v') : ∀ lo hi l o e, WF t → NoBitOption t → t.Has v →
    generateAssembler t = .ok o → layout t = .ok l → o.asm v = .ok e → hi = lo + o.width →
    ∃ lo' o' e', l.range lo hi p = some (lo', lo' + o'.width) ∧ lo ≤ lo' ∧ lo' + o'.width ≤ hi ∧ generateAssembler t' = .ok o' ∧ o'.asm v' = .ok e' ∧
      ∀ x, x / 2 ^ lo % 2 ^ o.width = e.toNat → x / 2 ^ lo' % 2 ^ o'.width = e'.toNat := by
  induction hp with
  | here =>
    rintro lo hi l o e hw hb hv ho hl he rfl
    exact ⟨lo, o, e, by simp [Lay.range], Nat.le_refl _, Nat.le_refl _, ho, he, fun x h => h⟩
  | @field c fs vs i k t v p t' v' hi hvi hp ih =>
    rintro lo hi' l o e hw hb hv ho hl he rfl
    obtain ⟨ls, a, sub, ot, et, rfl, b1, b2, b3, b4, b5, b6⟩ := prod_part hw hb hv ho he hl hi hvi
    have hwt := wfs_mem fs hw.2 i k t hi
    have hvt : t.Has v := by
      clear ih ho he hl b1 b2 b3 b4 b5 b6 hw hb
      simp only [Ty.Has] at hv
      induction fs using Fields.rec (motive_1 := fun _ => True) generalizing vs i with
      | nil => simp [Fields.toList] at hi
      | cons k0 t0 fs _ ih2 =>
        cases vs with
        | nil => simp at hvi
        | cons v0 vs =>
          cases i with
          | zero =>
            simp only [Fields.toList, List.getElem?_cons_zero, Option.some.injEq, Prod.mk.injEq] at hi hvi
            obtain ⟨rfl, rfl⟩ := hi
            subst hvi
            exact hv.1
          | succ i => exact ih2 (by simpa [Fields.toList] using hi) (by simpa using hvi) hv.2
      | _ => trivial
    obtain ⟨lo', o', e', c1, c2, c3, c4, c5, c6⟩ := ih (lo + a) (lo + (a + ot.width)) sub ot et hwt (noBit_mem hb (List.mem_of_getElem? hi)) hvt b3 b2 b4 (by omega)
    refine ⟨lo', o', e', by simp only [Lay.range, b1, c1], by omega, by omega, c4, c5, fun x hx => c6 x ?_⟩
    rw [← b6, ← hx, mul_mod_div _ b5, Nat.div_div_eq_div_mul, ← Nat.pow_add]
  | @option c fs k t v p t' v' hk hp ih =>
    rintro lo hi' l o e hw hb hv ho hl he rfl
    have hvt : t.Has v := by
      obtain ⟨i, t2, h1, h2⟩ := (hasAt_iff hw.2.1 k v).1 hv
      rw [mem_unique hw.2.1 hk (List.mem_of_getElem? h1)]
      exact h2
    obtain ⟨i, hi⟩ := List.getElem?_of_mem hk
    have hwt := wfs_mem fs hw.2.2 i k t hi
    obtain ⟨ls, a, sub, ot, et, rfl, b1, b2, b3, b4, b5, b6⟩ := sum_part hw hb hk hvt ho he hl
    obtain ⟨lo', o', e', c1, c2, c3, c4, c5, c6⟩ := ih (lo + a) (lo + (a + ot.width)) sub ot et hwt (noBit_mem hb.2 hk) hvt b3 b2 b4 (by omega)
    refine ⟨lo', o', e', by simp only [Lay.range, b1, c1], by omega, by omega, c4, c5, fun x hx => c6 x ?_⟩
    rw [← b6, ← hx, mul_mod_div _ b5, Nat.div_div_eq_div_mul, ← Nat.pow_add]

end Peak.Auto

namespace Peak
open Peak.Spec

/-- C20, the layout: following the returned layout along the path of any part of a value gives a range of bits inside the code, as long as codes of the
part's type, and these bits of the code of the value are the code of the part.
Missing: as `C20_round_trip_partial`. -/
theorem C20_layout_partial (t : Ty) (hw : WF t) (hb : NoBitOption t) (v : Val) (hv : t.Has v) (p : List Key) (t' : Ty) (v' : Val) (hp : Auto.Part t v p t' v') :
    ∃ o l e o' e' lo hi, generateAssembler t = .ok o ∧ Auto.layout t = .ok l ∧ o.asm v = .ok e ∧ generateAssembler t' = .ok o' ∧ o'.asm v' = .ok e' ∧
      l.range 0 o.width p = some (lo, hi) ∧ hi ≤ o.width ∧ hi - lo = o'.width ∧ lo ≤ hi ∧ e.toNat / 2 ^ lo % 2 ^ (hi - lo) = e'.toNat := by
  obtain ⟨o, ho, hr⟩ := C20_round_trip_partial t hw hb
  obtain ⟨l, hl⟩ := Auto.layout_ok t hw hb
  obtain ⟨e, he, -, hs⟩ := hr v hv
  obtain ⟨lo, o', e', h1, h2, h3, h4, h5, h6⟩ := Auto.part_has hp 0 o.width l o e hw hb hv ho hl he (by omega)
  refine ⟨o, l, e, o', e', lo, lo + o'.width, ho, hl, he, h4, h5, h1, h3, by omega, by omega, ?_⟩
  rw [Nat.add_sub_cancel_left]
  apply h6
  rw [Nat.pow_zero, Nat.div_one, Nat.mod_eq_of_lt]
  rw [← hs]
  cases e with
  | bv b => exact b.isLt
  | bit b => cases b <;> decide

/-- The bit of the product inside the union inside the product, of the demonstration type. -/
example : Auto.Part autoDemo (.prod [.enum (.auto 1), .bit true, .sum 1 (.prod [.bits (BV.ofNat 2 3), .bit false])]) [2, 1, 1] (.bit 2) (.bit false) :=
  .field (i := 2) rfl rfl (.option (t := .prod 5 (.cons 0 (.bv 6 2) (.cons 1 (.bit 2) .nil))) (by simp [Fields.toList]) (.field (i := 1) rfl rfl .here))

end Peak
