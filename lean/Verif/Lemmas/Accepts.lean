import Verif.Props.Validator
import Verif.Props.Assembler
/-!
# What `is_valid` accepts, exactly
-/

namespace Peak
open Peak.Spec

namespace Acc

mutual
theorem accepts_mod : ∀ (t : Ty) (n w : Nat), width t ≤ w → (Accepts t (n % 2 ^ w) ↔ Accepts t n)
  | .bv _ _, _, _, _ => Iff.rfl
  | .bit _, _, _, _ => Iff.rfl
  | .enum c ms, n, w, h => by
    simp only [Accepts]
    rw [mod_mod_pow n _ w h]
  | .prod c fs, n, w, h => by
    simp only [Accepts]
    exact acceptsAll_mod fs n w h
  | .sum c fs, n, w, h => by
    simp only [Accepts]
    simp only [width] at h
    rw [mod_mod_pow n _ w (by omega), div_mod_pow n _ w (by omega)]
    exact acceptsAt_mod fs _ _ _ (by omega)
theorem acceptsAll_mod : ∀ (fs : Fields) (n w : Nat), sumWidths fs ≤ w → (AcceptsAll fs (n % 2 ^ w) ↔ AcceptsAll fs n)
  | .nil, _, _, _ => Iff.rfl
  | .cons k t fs, n, w, h => by
    simp only [AcceptsAll]
    simp only [sumWidths] at h
    rw [accepts_mod t n w (by omega), div_mod_pow n _ w (by omega), acceptsAll_mod fs _ _ (by omega)]
theorem acceptsAt_mod : ∀ (fs : Fields) (i n w : Nat), maxWidth fs ≤ w → (AcceptsAt fs i (n % 2 ^ w) ↔ AcceptsAt fs i n)
  | .nil, _, _, _, _ => Iff.rfl
  | .cons k t fs, 0, n, w, h => by
    simp only [AcceptsAt]
    simp only [maxWidth] at h
    exact accepts_mod t n w (by omega)
  | .cons k t fs, i + 1, n, w, h => by
    simp only [AcceptsAt]
    simp only [maxWidth] at h
    exact acceptsAt_mod fs i n w (by omega)
end

theorem acceptsAt_iff : ∀ (fs : Fields) (i n : Nat), AcceptsAt fs i n ↔ ∃ k t, fs.toList[i]? = some (k, t) ∧ Accepts t n
  | .nil, i, n => by simp [AcceptsAt, Fields.toList]
  | .cons k t fs, 0, n => by
    simp only [AcceptsAt, Fields.toList, List.getElem?_cons_zero, Option.some.injEq, Prod.mk.injEq]
    constructor
    · exact fun h => ⟨k, t, ⟨rfl, rfl⟩, h⟩
    · rintro ⟨_, _, ⟨rfl, rfl⟩, h⟩; exact h
  | .cons k t fs, i + 1, n => by
    simp only [AcceptsAt, Fields.toList, List.getElem?_cons_succ]
    exact acceptsAt_iff fs i n

/-- `o` is the assembler of `t` and its validator is known. -/
def Ok (t : Ty) (o : AsmObj) : Prop := ∀ b : BV, b.size = width t → (o.isv b = true ↔ Accepts t b.val)

/-- What is known of the cached assemblers. -/
def All (st : St) : Prop := ∀ p ∈ st.icache, Ok p.1 p.2

theorem cached_all {t : Ty} {make : St → Except Err AsmObj × St} {st : St} (hS : All st) (h1 : All (make st).2)
    (h2 : ∀ o, (make st).1 = .ok o → Ok t o) :
    All (cached t make st).2 ∧ ∀ o, (cached t make st).1 = .ok o → Ok t o := by
  unfold cached
  cases hl : st.icache.lookup t with
  | some o =>
    refine ⟨hS, fun o' ho => ?_⟩
    cases ho
    exact hS (t, o) (mem_of_lookup hl)
  | none =>
    simp only
    generalize make st = m at *
    obtain ⟨r, st'⟩ := m
    cases r with
    | error e => exact ⟨h1, fun o ho => by cases ho⟩
    | ok o =>
      refine ⟨?_, fun o' ho => h2 o' ho⟩
      intro p hp
      rcases List.mem_cons.1 hp with hp | hp
      · subst hp
        exact h2 o rfl
      · exact h1 p hp

/-- A product's validator: every field's. -/
theorem rows_iff : ∀ (fs : Fields) (l : List (Key × Ty × AsmObj)) (base : Nat) (b : BV),
    GoodAll True False fs l → (∀ p ∈ l, Ok p.2.1 p.2.2) → base + sumWidths fs ≤ b.size →
    ((tupleRows (strip l) base).all (fun r => r.obj.isValid (b.slice r.lo r.hi)) = true ↔ AcceptsAll fs (b.val / 2 ^ base))
  | .nil, l, base, b, hg, _, _ => by
    cases l <;> simp only [GoodAll] at hg
    simp [strip, tupleRows, AcceptsAll]
  | .cons k t fs, l, base, b, hg, ho, hb => by
    cases l with
    | nil => simp only [GoodAll] at hg
    | cons p l =>
      obtain ⟨k', t', o⟩ := p
      simp only [GoodAll] at hg
      obtain ⟨rfl, rfl, hg, hgs⟩ := hg
      simp only [sumWidths] at hb
      obtain ⟨s1, s2⟩ := slice_field (b := b) (base := base) (w := width t') (by omega)
      have h1 := ho (k', t', o) (by simp) _ s1
      simp only at h1
      rw [s2, accepts_mod _ _ _ (Nat.le_refl _)] at h1
      have h2 := rows_iff fs l (base + width t') b hgs (fun p hp => ho p (by simp [hp])) (by omega)
      rw [Nat.pow_add, ← Nat.div_div_eq_div_mul] at h2
      simp only [strip] at h2
      simp only [strip, List.map_cons, tupleRows, hg.width, List.all_cons, Bool.and_eq_true, AcceptsAll]
      exact and_congr h1 h2

/-- A union's validator: the tag's option is accepted. -/
theorem sum_ok {cl : Nat} {fs : Fields} (hw : WF (.sum cl fs)) (hm : Mild (.sum cl fs)) {l : List (Key × Ty × AsmObj)}
    (hg : GoodAll True False fs l) (hk : ∀ p ∈ l, Ok p.2.1 p.2.2) {c : VCache} (hc : CInv Env.mild.P c)
    {o : AsmObj} {c' : VCache} (ho : sumObj l c = (.ok o, c')) : Ok (.sum cl fs) o := by
  obtain ⟨_, q1, q2⟩ := reqs_mild _ hw hm
  obtain ⟨hne, hnd, hws⟩ := hw
  obtain ⟨hp, hgs⟩ := goodAll_pairs fs l hg
  have hlen : l.length = fs.toList.length := by rw [← hp]; simp [pairs]
  have hl : l ≠ [] := by intro h; apply hne; rw [← hp, h]; rfl
  have hkeys : l.map (·.1) = fs.toList.map (·.1) := by rw [← hp]; simp [pairs, Function.comp_def]
  have hty : ∀ ty, ty ∈ l.map (·.2.1) ↔ ty ∈ fs.toList.map (·.2) := by
    intro ty; rw [← hp]; simp [pairs, Function.comp_def]
  have hA0 : l ≠ [] → Env.mild.A (List.range l.length) (tagBits l.length) := by
    intro _; rw [hlen]; exact q1 hne
  have hA : ∀ ty ∈ l.map (·.2.1), Env.mild.A (tagsOf ty (pairs l) 0) (tagBits l.length) := by
    intro ty h; rw [hlen, hp]; exact q2 ty ((hty ty).1 h)
  obtain ⟨a, ha⟩ := sumScan_ok (tagBits l.length) l 0 {} (by rw [hkeys]; exact hnd) (by simp)
  obtain ⟨_, H⟩ := sumObj_inv Env.mild hc hA0 hA
  obtain ⟨r1, r2, r3, r4, vs, tagIsv, o', c'', ho', hvs, hacc, _, hpure, _, _, _, _, oi, _⟩ := H a hl ha
  rw [ho'] at ho
  cases ho
  intro b hb
  simp only [width] at hb
  rw [oi]
  simp only [Accepts, sumIsv, foldl_or_any, Bool.false_or, List.any_eq_true, acceptsAt_iff, Bool.and_eq_true]
  rw [hlen] at hacc r4
  simp only [hlen]
  rw [hp] at r2
  generalize htw : tagBits fs.toList.length = tw at *
  obtain ⟨e1, e2⟩ : (b.slice 0 tw).size = tw ∧ (b.slice 0 tw).val = b.val % 2 ^ tw := by
    have := slice_field (b := b) (base := 0) (w := tw) (by omega)
    simpa using this
  have key : ∀ p ∈ vs, (p.2 (b.slice 0 tw) = true ∧ p.1.obj.isValid (b.slice p.1.lo p.1.hi) = true ↔
      ∃ k, fs.toList[b.val % 2 ^ tw]? = some (k, p.1.ty) ∧ Accepts p.1.ty (b.val / 2 ^ tw)) := by
    intro p hp'
    have hr : p.1 ∈ a.rows := by rw [← hvs]; exact List.mem_map.2 ⟨p, hp', rfl⟩
    obtain ⟨x, hx, x1, x2, x3, x4⟩ := r4 p.1 hr
    have htags : p.2 (b.slice 0 tw) = true ↔ ∃ k, fs.toList[b.val % 2 ^ tw]? = some (k, p.1.ty) := by
      have hmem : (b.slice 0 tw).val ∈ p.1.tags ↔ ∃ k, fs.toList[b.val % 2 ^ tw]? = some (k, p.1.ty) := by
        rw [r2 _ hr, mem_tagsOf, e2]
        constructor
        · rintro ⟨j, k, h1, h2⟩; exact ⟨k, by rw [h1, Nat.zero_add]; exact h2⟩
        · rintro ⟨k, h⟩; exact ⟨_, k, by rw [Nat.zero_add], h⟩
      rw [← hmem]
      constructor
      · intro hv
        obtain ⟨w', z1, z2⟩ := hpure p hp'
        rw [z1] at hv
        refine mild_exact (w := tw) ?_ z2 ?_ _ e1 hv
        · rw [r2 _ hr]
          exact q2 _ ((hty _).1 ((r3 _).1 (List.mem_map.2 ⟨_, hr, rfl⟩)))
        · rw [r2 _ hr]; exact multi_tags hm.2.1
      · exact hacc trivial p hp' _ e1
    rw [htags]
    constructor
    · rintro ⟨⟨k, h1⟩, h2⟩
      refine ⟨k, h1, ?_⟩
      have hwd := width_le_maxWidth fs _ k _ h1
      obtain ⟨z1, z2⟩ := slice_field (b := b) (base := tw) (w := width p.1.ty) (by omega)
      have hox := hk x hx
      rw [← x1, ← x2] at hox
      have hwx := (hgs x hx).width
      rw [← x1] at hwx
      rw [x3, x4, hwx] at h2
      have := (hox _ z1).1 h2
      rwa [z2, accepts_mod _ _ _ (Nat.le_refl _)] at this
    · rintro ⟨k, h1, h2⟩
      refine ⟨⟨k, h1⟩, ?_⟩
      have hwd := width_le_maxWidth fs _ k _ h1
      obtain ⟨z1, z2⟩ := slice_field (b := b) (base := tw) (w := width p.1.ty) (by omega)
      have hox := hk x hx
      rw [← x1, ← x2] at hox
      have hwx := (hgs x hx).width
      rw [← x1] at hwx
      rw [x3, x4, hwx]
      refine (hox _ z1).2 ?_
      rw [z2, accepts_mod _ _ _ (Nat.le_refl _)]
      exact h2
  constructor
  · rintro ⟨p, hp', h⟩
    obtain ⟨k, h1, h2⟩ := (key p hp').1 h
    exact ⟨k, _, h1, h2⟩
  · rintro ⟨k, t, h1, h2⟩
    have ht : t ∈ a.rows.map (·.ty) := (r3 t).2 ((hty t).2 (List.mem_map.2 ⟨_, List.mem_of_getElem? h1, rfl⟩))
    obtain ⟨r, hr, rfl⟩ := List.mem_map.1 ht
    rw [← hvs] at hr
    obtain ⟨p, hp', rfl⟩ := List.mem_map.1 hr
    exact ⟨p, hp', (key p hp').2 ⟨k, h1, h2⟩⟩

mutual
theorem build_ok : ∀ (t : Ty) (st : St), WF t → Mild t → SInv Env.mild st → All st → All (t.build st).2 ∧ ∀ o, (t.build st).1 = .ok o → Ok t o
  | .bv c w, st, _, _, _, hS => by
    unfold Ty.build
    exact cached_all hS hS (fun o ho b _ => by cases ho; simp [Accepts, bvObj])
  | .bit c, st, _, _, _, hS => by
    unfold Ty.build
    exact cached_all hS hS (fun o ho b _ => by cases ho; simp [Accepts, bitObj])
  | .enum c ms, st, hw, hm', hI, hS => by
    unfold Ty.build
    refine cached_all hS hS ?_
    intro o ho b hb
    have hA := reqs_mild _ hw hm'
    obtain ⟨a, ha, hne, hm, hnd, hwd⟩ := enum_request (ms := ms) hw
    have hdv : dictValues a.asm [] ≠ [] := by
      cases h : a.asm with
      | nil => exact absurd h hne
      | cons p l => obtain ⟨k, v⟩ := p; simp [dictValues]
    obtain ⟨isv, vc', g1, _, ⟨w', g3, g4⟩, g5, _⟩ := request Env.mild hI.1 hdv (hA a ha hne)
    have hsr : SeveralRanges (dictValues a.asm []) ↔ SeveralRanges (enumCodes ms).dedup :=
      severalRanges_congr (fun x => by rw [hm, List.mem_dedup]) hnd (List.nodup_dedup _)
    simp only [enumObj, ha, if_neg hne, g1] at ho
    cases ho
    simp only [width] at hb
    have hv : b.val % 2 ^ width (.enum c ms) = b.val := by
      simp only [width]; rw [← hb]; exact Nat.mod_eq_of_lt b.isLt
    simp only [Accepts, hv]
    by_cases hs : SeveralRanges (enumCodes ms).dedup
    · simp only [hs, true_or, iff_true]
      rw [g3, pureV_multi (isMultiB_several hnd (hsr.2 hs))]
      rfl
    · simp only [hs, false_or]
      rw [← hm]
      constructor
      · intro h
        rw [g3] at h
        exact mild_exact (hA a ha hne) g4 (isMultiB_false hdv hnd (fun h => hs (hsr.1 h))) b (by rw [hwd]; exact hb) h
      · exact g5 trivial b (by rw [hwd]; exact hb)
  | .prod c fs, st, hw, hm, hI, hS => by
    unfold Ty.build
    obtain ⟨h1, h2⟩ := fields_ok fs st hw.2 hm hI hS
    obtain ⟨_, k2, _⟩ := buildAll_inv Env.mild fs st (reqs_mild _ hw hm) hI
    refine cached_all hS ?_ ?_
    · generalize fs.build st = m at *
      obtain ⟨r, st'⟩ := m
      cases r <;> exact h1
    · intro o ho b hb
      obtain ⟨l, hl, hg⟩ := k2 hw.2
      generalize fs.build st = m at *
      obtain ⟨r, st'⟩ := m
      simp only at hl
      subst hl
      cases ho
      have := rows_iff fs l 0 b hg (h2 l rfl) (by simp only [width] at hb; omega)
      simp only [Nat.pow_zero, Nat.div_one] at this
      simp only [Accepts, ← this]
      change (tupleObj (strip l)).isv b = true ↔ _
      simp only [tupleObj, foldl_and_all, Bool.true_and]
  | .sum c fs, st, hw, hm, hI, hS => by
    unfold Ty.build
    obtain ⟨h1, h2⟩ := fields_ok fs st hw.2.2 hm.2.2 hI hS
    obtain ⟨k1, k2, _⟩ := buildAll_inv Env.mild fs st (reqs_mild _ hw hm).1 hI
    refine cached_all hS ?_ ?_
    · generalize fs.build st = m at *
      obtain ⟨r, st'⟩ := m
      cases r <;> exact h1
    · intro o ho
      obtain ⟨l, hl, hg⟩ := k2 hw.2.2
      generalize fs.build st = m at *
      obtain ⟨r, st'⟩ := m
      simp only at hl
      subst hl
      exact sum_ok hw hm hg (h2 l rfl) k1.1 (Prod.ext ho rfl)
theorem fields_ok : ∀ (fs : Fields) (st : St), WFs fs → Milds fs → SInv Env.mild st → All st →
    All (fs.build st).2 ∧ ∀ l, (fs.build st).1 = .ok l → ∀ p ∈ l, Ok p.2.1 p.2.2
  | .nil, st, _, _, _, hS => by
    unfold Fields.build
    exact ⟨hS, fun l hl p hp => by cases hl; cases hp⟩
  | .cons k t fs, st, hw, hm, hI, hS => by
    unfold Fields.build
    obtain ⟨h1, h2⟩ := build_ok t st hw.1 hm.1 hI hS
    have hI' := (build_inv Env.mild t st (reqs_mild t hw.1 hm.1) hI).1
    generalize t.build st = m at *
    obtain ⟨r, st'⟩ := m
    cases r with
    | error e => exact ⟨h1, fun l hl => by cases hl⟩
    | ok o =>
      obtain ⟨h3, h4⟩ := fields_ok fs st' hw.2 hm.2 hI' h1
      simp only
      generalize fs.build st' = m at *
      obtain ⟨r, st''⟩ := m
      cases r with
      | error e => exact ⟨h3, fun l hl => by cases hl⟩
      | ok l =>
        refine ⟨h3, fun l' hl p hp => ?_⟩
        cases hl
        rcases List.mem_cons.mp hp with rfl | hp
        · exact h2 o rfl
        · exact h4 l rfl p hp
end

theorem history_ok (hist : List Ty) (h : ∀ t ∈ hist, WF t ∧ Mild t) : All (runHistory hist) := by
  unfold runHistory
  suffices H : ∀ (hist : List Ty) (st : St), (∀ t ∈ hist, WF t ∧ Mild t) → SInv Env.mild st → All st →
      All (hist.foldl (fun st t => (t.build st).2) st) by
    refine H hist {} h ⟨by intro e he; simp at he, by simp⟩ ?_
    intro p hp
    cases hp
  intro hist
  induction hist with
  | nil => intro st _ _ hS; exact hS
  | cons t hist ih =>
    intro st hh hI hS
    obtain ⟨hw, hm⟩ := hh t (by simp)
    rw [List.foldl_cons]
    exact ih _ (fun t ht => hh t (by simp [ht])) (build_inv Env.mild t st (reqs_mild t hw hm) hI).1
      (build_ok t st hw hm hI hS).1

end Acc

end Peak

namespace Peak
open Peak.Spec

namespace Acc

theorem runCount_range (m : Nat) : runCount (List.range (m + 1)) = 1 := by
  unfold runCount
  rw [List.range_succ, List.filter_append]
  have h1 : List.filter (fun x => decide (x + 1 ∉ List.range m ++ [m])) (List.range m) = [] := by
    rw [List.filter_eq_nil_iff]
    intro x hx
    have := List.mem_range.1 hx
    simp only [List.mem_append, List.mem_range, List.mem_singleton, decide_eq_true_eq, not_not]
    omega
  rw [h1]
  simp

/-- An enum with codes in several ranges leaves some code of its width unused. -/
theorem free_code {ms : List EVal} (hs : SeveralRanges (enumCodes ms).dedup) : ∃ n, n < 2 ^ enumWidth ms ∧ n ∉ enumCodes ms := by
  refine Classical.byContradiction fun hn => hs.2.1 ?_
  obtain ⟨m, hm⟩ : ∃ m, 2 ^ enumWidth ms = m + 1 := ⟨2 ^ enumWidth ms - 1, by have := Nat.two_pow_pos (enumWidth ms); omega⟩
  rw [perm_runCount (b := List.range (m + 1)) _ (List.nodup_dedup _) List.nodup_range, runCount_range]
  intro x
  rw [List.mem_dedup, List.mem_range, ← hm]
  constructor
  · intro hx
    obtain ⟨e, _, he⟩ := List.mem_filterMap.1 hx
    exact enumCode_lt he
  · intro hx
    exact Classical.byContradiction fun h => hn ⟨x, hx, h⟩

theorem join_low (a b w : Nat) : (a % 2 ^ w + 2 ^ w * b) % 2 ^ w = a % 2 ^ w := by
  rw [Nat.add_mul_mod_self_left, Nat.mod_mod]

theorem join_high (a b w : Nat) : (a % 2 ^ w + 2 ^ w * b) / 2 ^ w = b := by
  rw [Nat.add_mul_div_left _ _ (Nat.two_pow_pos w), Nat.div_eq_of_lt (Nat.mod_lt _ (Nat.two_pow_pos w)), Nat.zero_add]

theorem accepts_join (t : Ty) (a b : Nat) : Accepts t (a % 2 ^ width t + 2 ^ width t * b) ↔ Accepts t a := by
  rw [← accepts_mod t _ _ (Nat.le_refl _), join_low, accepts_mod t _ _ (Nat.le_refl _)]

theorem reads_join (t : Ty) (a b : Nat) (v : Val) : Reads t (a % 2 ^ width t + 2 ^ width t * b) v ↔ Reads t a v := by
  rw [← reads_mod t _ _ _ (Nat.le_refl _), join_low, reads_mod t _ _ _ (Nat.le_refl _)]

mutual
theorem some_accepted : ∀ t : Ty, Mild t → ∃ n, Accepts t n
  | .bv _ _, _ => ⟨0, trivial⟩
  | .bit _, _ => ⟨0, trivial⟩
  | .enum c ms, h => by
    obtain ⟨n, hn, _⟩ := h
    obtain ⟨e, _, he⟩ := List.mem_filterMap.1 hn
    refine ⟨n, Or.inr ?_⟩
    simp only [width]
    rw [Nat.mod_eq_of_lt (enumCode_lt he)]
    exact hn
  | .prod _ fs, h => some_acceptedAll fs h
  | .sum _ fs, h => by
    obtain ⟨h1, _, h2⟩ := h
    obtain ⟨n, hn⟩ := some_acceptedAt fs h2 (by omega)
    refine ⟨0 % 2 ^ tagBits fs.toList.length + 2 ^ tagBits fs.toList.length * n, ?_⟩
    simp only [Accepts]
    rw [join_low, join_high, Nat.zero_mod]
    exact hn
theorem some_acceptedAll : ∀ fs : Fields, Milds fs → ∃ n, AcceptsAll fs n
  | .nil, _ => ⟨0, trivial⟩
  | .cons k t fs, h => by
    obtain ⟨n, hn⟩ := some_accepted t h.1
    obtain ⟨m, hm⟩ := some_acceptedAll fs h.2
    refine ⟨n % 2 ^ width t + 2 ^ width t * m, (accepts_join t n m).2 hn, ?_⟩
    rw [join_high]; exact hm
theorem some_acceptedAt : ∀ fs : Fields, Milds fs → 0 < fs.toList.length → ∃ n, AcceptsAt fs 0 n
  | .nil, _, h => by simp [Fields.toList] at h
  | .cons _ t _, h, _ => some_accepted t h.1
end

mutual
/-- An enum with codes in several ranges, anywhere in the type: some accepted pattern spells no value. -/
theorem some_wrong : ∀ t : Ty, Mild t → ¬ Checkable t → ∃ n, Accepts t n ∧ ∀ v, ¬ Reads t n v
  | .bv _ _, _, h => absurd trivial h
  | .bit _, _, h => absurd trivial h
  | .enum c ms, hm, h => by
    have hs : SeveralRanges (enumCodes ms).dedup := Classical.byContradiction fun hs => h ⟨hm, hs⟩
    obtain ⟨n, h1, h2⟩ := free_code hs
    refine ⟨n, Or.inl hs, fun v hv => ?_⟩
    cases v <;> simp only [Reads] at hv
    next e =>
      rw [Nat.mod_eq_of_lt h1] at hv
      refine h2 (List.mem_filterMap.2 ⟨e, ?_, hv⟩)
      exact enumCode_mem hv
  | .prod _ fs, hm, h => by
    obtain ⟨n, h1, h2⟩ := some_wrongAll fs hm h
    refine ⟨n, h1, fun v hv => ?_⟩
    cases v <;> simp only [Reads] at hv
    exact h2 _ hv
  | .sum _ fs, hm, h => by
    obtain ⟨i, n, hi, h1, h2⟩ := some_wrongAt fs hm.2.2 (fun hc => h ⟨hm.1, hm.2.1, hc⟩)
    have hlt := lt_tagBits hi
    refine ⟨i % 2 ^ tagBits fs.toList.length + 2 ^ tagBits fs.toList.length * n, ?_, fun v hv => ?_⟩
    · simp only [Accepts]
      rw [join_low, join_high, Nat.mod_eq_of_lt hlt]
      exact h1
    · cases v <;> simp only [Reads] at hv
      rw [join_low, join_high, Nat.mod_eq_of_lt hlt] at hv
      exact h2 _ _ hv
theorem some_wrongAll : ∀ fs : Fields, Milds fs → ¬ Checkables fs → ∃ n, AcceptsAll fs n ∧ ∀ vs, ¬ ReadsAll fs n vs
  | .nil, _, h => absurd trivial h
  | .cons k t fs, hm, h => by
    by_cases hc : Checkable t
    · obtain ⟨n, hn⟩ := some_accepted t hm.1
      obtain ⟨m, h1, h2⟩ := some_wrongAll fs hm.2 (fun hcs => h ⟨hc, hcs⟩)
      refine ⟨n % 2 ^ width t + 2 ^ width t * m, ⟨(accepts_join t n m).2 hn, by rw [join_high]; exact h1⟩, fun vs hv => ?_⟩
      cases vs <;> simp only [ReadsAll] at hv
      rw [join_high] at hv
      exact h2 _ hv.2
    · obtain ⟨n, h1, h2⟩ := some_wrong t hm.1 hc
      obtain ⟨m, hm'⟩ := some_acceptedAll fs hm.2
      refine ⟨n % 2 ^ width t + 2 ^ width t * m, ⟨(accepts_join t n m).2 h1, by rw [join_high]; exact hm'⟩, fun vs hv => ?_⟩
      cases vs <;> simp only [ReadsAll] at hv
      exact h2 _ ((reads_join t n m _).1 hv.1)
theorem some_wrongAt : ∀ fs : Fields, Milds fs → ¬ Checkables fs →
    ∃ i n, i < fs.toList.length ∧ AcceptsAt fs i n ∧ ∀ k v, ¬ ReadsAt fs i k n v
  | .nil, _, h => absurd trivial h
  | .cons k t fs, hm, h => by
    by_cases hc : Checkable t
    · obtain ⟨i, n, hi, h1, h2⟩ := some_wrongAt fs hm.2 (fun hcs => h ⟨hc, hcs⟩)
      exact ⟨i + 1, n, by simp [Fields.toList, hi], h1, fun k v hv => h2 k v hv⟩
    · obtain ⟨n, h1, h2⟩ := some_wrong t hm.1 hc
      exact ⟨0, n, by simp [Fields.toList], h1, fun k v hv => h2 v hv.2⟩
end

mutual
/-- The encodings of values are accepted. -/
theorem accepts_of_reads : ∀ (t : Ty) (n : Nat) (v : Val), Reads t n v → Accepts t n
  | .bv _ _, _, _, _ => trivial
  | .bit _, _, _, _ => trivial
  | .enum c ms, n, v, h => by
    cases v <;> simp only [Reads] at h
    exact Or.inr (List.mem_filterMap.2 ⟨_, enumCode_mem h, h⟩)
  | .prod _ fs, n, v, h => by
    cases v <;> simp only [Reads] at h
    exact acceptsAll_of_reads fs n _ h
  | .sum _ fs, n, v, h => by
    cases v <;> simp only [Reads] at h
    exact acceptsAt_of_reads fs _ _ _ _ h
theorem acceptsAll_of_reads : ∀ (fs : Fields) (n : Nat) (vs : List Val), ReadsAll fs n vs → AcceptsAll fs n
  | .nil, _, _, _ => trivial
  | .cons k t fs, n, vs, h => by
    cases vs <;> simp only [ReadsAll] at h
    exact ⟨accepts_of_reads t n _ h.1, acceptsAll_of_reads fs _ _ h.2⟩
theorem acceptsAt_of_reads : ∀ (fs : Fields) (i : Nat) (k : Key) (n : Nat) (v : Val), ReadsAt fs i k n v → AcceptsAt fs i n
  | .nil, _, _, _, _, h => h
  | .cons _ t _, 0, _, n, v, h => accepts_of_reads t n v h.2
  | .cons _ _ fs, i + 1, k, n, v, h => acceptsAt_of_reads fs i k n v h
end

mutual
/-- Without enums whose codes form several ranges, only these are. -/
theorem reads_of_accepts : ∀ (t : Ty), Checkable t → ∀ n, Accepts t n → ∃ v, Reads t n v
  | .bv _ w, _, n, _ => ⟨.bits (BV.ofNat w n), rfl⟩
  | .bit _, _, n, _ => by
    refine ⟨.bit (decide (n % 2 = 1)), ?_⟩
    rcases Nat.mod_two_eq_zero_or_one n with h | h <;> simp [Reads, h]
  | .enum c ms, hc, n, h => by
    rcases h with h | h
    · exact absurd h hc.2
    · obtain ⟨e, _, he⟩ := List.mem_filterMap.1 h
      exact ⟨.enum e, he⟩
  | .prod _ fs, hc, n, h => by
    obtain ⟨vs, hv⟩ := reads_of_acceptsAll fs hc n h
    exact ⟨.prod vs, hv⟩
  | .sum _ fs, hc, n, h => by
    obtain ⟨k, v, hv⟩ := reads_of_acceptsAt fs hc.2.2 _ _ h
    exact ⟨.sum k v, hv⟩
theorem reads_of_acceptsAll : ∀ (fs : Fields), Checkables fs → ∀ n, AcceptsAll fs n → ∃ vs, ReadsAll fs n vs
  | .nil, _, _, _ => ⟨[], trivial⟩
  | .cons k t fs, hc, n, h => by
    obtain ⟨v, hv⟩ := reads_of_accepts t hc.1 n h.1
    obtain ⟨vs, hvs⟩ := reads_of_acceptsAll fs hc.2 _ h.2
    exact ⟨v :: vs, hv, hvs⟩
theorem reads_of_acceptsAt : ∀ (fs : Fields), Checkables fs → ∀ i n, AcceptsAt fs i n → ∃ k v, ReadsAt fs i k n v
  | .nil, _, _, _, h => h.elim
  | .cons k t _, hc, 0, n, h => by
    obtain ⟨v, hv⟩ := reads_of_accepts t hc.1 n h
    exact ⟨k, v, rfl, hv⟩
  | .cons _ _ fs, hc, i + 1, n, h => reads_of_acceptsAt fs hc.2 i n h
end

theorem accepts_iff_reads (t : Ty) (hc : Checkable t) (n : Nat) : Accepts t n ↔ ∃ v, Reads t n v :=
  ⟨reads_of_accepts t hc n, fun ⟨v, hv⟩ => accepts_of_reads t n v hv⟩

end Acc

end Peak
