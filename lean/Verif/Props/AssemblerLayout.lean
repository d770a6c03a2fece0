import Verif.Props.Assembler
/-!
# C07 – C10: layouts, enum codes, union tags, sub-fields
-/

namespace Peak
open Peak.Spec

/-! ## C07: layouts -/

theorem layoutFrom_keys : ∀ (fs : Fields) (base : Nat), (layoutFrom base fs).map (·.1) = fs.toList.map (·.1)
  | .nil, _ => rfl
  | .cons _ t fs, base => by simp [layoutFrom, Fields.toList, layoutFrom_keys fs (base + width t)]

theorem layoutFrom_sizes : ∀ (fs : Fields) (base : Nat),
    (layoutFrom base fs).map (fun e => e.2.2 - e.2.1) = fs.toList.map (fun p => width p.2)
  | .nil, _ => rfl
  | .cons _ t fs, base => by simp [layoutFrom, Fields.toList, layoutFrom_sizes fs (base + width t)]

theorem layoutFrom_tiles : ∀ (fs : Fields) (base : Nat), Tiles base (base + sumWidths fs) ((layoutFrom base fs).map (·.2))
  | .nil, base => by simp [layoutFrom, Tiles, sumWidths]
  | .cons _ t fs, base => by
    have := layoutFrom_tiles fs (base + width t)
    simp only [layoutFrom, List.map_cons, Tiles, sumWidths, true_and]
    refine ⟨by omega, ?_⟩
    rw [← Nat.add_assoc]; exact this

/-- C07 for products and tuples: the layout lists the fields in order, each with as many bits as its type needs, and the ranges follow each
other without gap or overlap from 0 to the width. -/
theorem C07_product_layout (hist : List Ty) (c : Nat) (fs : Fields) (hw : WF (.prod c fs)) :
    ∃ o, assemblerAfter hist (.prod c fs) = .ok o ∧ o.layout.map (·.1) = fs.toList.map (·.1) ∧
      o.layout.map (fun e => e.2.2 - e.2.1) = fs.toList.map (fun p => width p.2) ∧
      Tiles 0 o.width (o.layout.map (·.2)) := by
  obtain ⟨o, ho⟩ := assemblerAfter_ok hist _ hw
  have hg := build_any hist _ hw (build_of_after ho)
  refine ⟨o, ho, ?_⟩
  rw [hg.layout, hg.width]
  refine ⟨layoutFrom_keys fs 0, layoutFrom_sizes fs 0, ?_⟩
  have := layoutFrom_tiles fs 0
  simpa [width, layoutOf] using this

/-- What `Tiles` gives a user: all ranges lie within the bounds, every bit in the bounds is in some range, and two different
entries do not overlap. -/
theorem tiles_partition : ∀ (rs : List (Nat × Nat)) (lo hi : Nat), Tiles lo hi rs →
    lo ≤ hi ∧ (∀ r ∈ rs, lo ≤ r.1 ∧ r.1 ≤ r.2 ∧ r.2 ≤ hi) ∧ (∀ i, lo ≤ i → i < hi → ∃ r ∈ rs, r.1 ≤ i ∧ i < r.2) ∧
      rs.Pairwise (fun r s => r.2 ≤ s.1)
  | [], lo, hi, h => by
    simp only [Tiles] at h; subst h
    refine ⟨Nat.le_refl _, by simp, ?_, .nil⟩
    intro i h1 h2; omega
  | (a, b) :: rs, lo, hi, h => by
    obtain ⟨rfl, h1, h2⟩ := h
    obtain ⟨g1, g2, g3, g4⟩ := tiles_partition rs b hi h2
    refine ⟨by omega, ?_, ?_, ?_⟩
    · intro r hr
      rcases List.mem_cons.1 hr with rfl | hr
      · exact ⟨Nat.le_refl _, h1, g1⟩
      · have := g2 r hr; omega
    · intro i hi1 hi2
      by_cases hb : i < b
      · exact ⟨(a, b), by simp, hi1, hb⟩
      · obtain ⟨r, hr, hr'⟩ := g3 i (by omega) hi2
        exact ⟨r, by simp [hr], hr'⟩
    · exact List.pairwise_cons.2 ⟨fun r hr => (g2 r hr).1, g4⟩

/-- C07, second form: the same as membership and disjointness. -/
theorem C07_product_partition (hist : List Ty) (c : Nat) (fs : Fields) (hw : WF (.prod c fs)) :
    ∃ o, assemblerAfter hist (.prod c fs) = .ok o ∧ (∀ e ∈ o.layout, e.2.1 ≤ e.2.2 ∧ e.2.2 ≤ o.width) ∧
      (∀ i, i < o.width → ∃ e ∈ o.layout, e.2.1 ≤ i ∧ i < e.2.2) ∧
      o.layout.Pairwise (fun e f => e.2.2 ≤ f.2.1) := by
  obtain ⟨o, ho, _, _, ht⟩ := C07_product_layout hist c fs hw
  obtain ⟨_, g2, g3, g4⟩ := tiles_partition _ _ _ ht
  refine ⟨o, ho, ?_, ?_, by simpa [List.pairwise_map] using g4⟩
  · intro e he
    have := g2 e.2 (List.mem_map_of_mem he); omega
  · intro i hi
    obtain ⟨r, hr, h⟩ := g3 i (Nat.zero_le _) hi
    obtain ⟨e, he, rfl⟩ := List.mem_map.1 hr
    exact ⟨e, he, h⟩

/-- C07 for unions: the tag occupies the low bits, just enough of them to tell the options apart, every option's payload starts
right behind the tag with as many bits as its type needs and stays within the width, and some option reaches the width. -/
theorem C07_union_layout (hist : List Ty) (c : Nat) (fs : Fields) (hw : WF (.sum c fs)) :
    ∃ o tg, assemblerAfter hist (.sum c fs) = .ok o ∧ o.tag = some tg ∧ tg.width = tagBits fs.toList.length ∧
      o.layout.map (·.1) = fs.toList.map (·.1) ∧
      o.layout.map (fun e => e.2.2 - e.2.1) = fs.toList.map (fun p => width p.2) ∧
      (∀ e ∈ o.layout, e.2.1 = tg.width ∧ e.2.1 ≤ e.2.2 ∧ e.2.2 ≤ o.width) ∧ ∃ e ∈ o.layout, e.2.2 = o.width := by
  obtain ⟨o, ho⟩ := assemblerAfter_ok hist _ hw
  have hg := build_any hist _ hw (build_of_after ho)
  obtain ⟨tg, h1, h2⟩ := hg.tag
  refine ⟨o, tg, ho, h1, h2.width, ?_⟩
  rw [hg.layout, hg.width, h2.width]
  refine ⟨by simp [layoutOf], by simp [layoutOf], ?_, ?_⟩
  · intro e he
    obtain ⟨p, hp, rfl⟩ := List.mem_map.1 he
    obtain ⟨i, hi⟩ := List.getElem?_of_mem hp
    have := width_le_maxWidth fs i p.1 p.2 hi
    simp only [width]
    exact ⟨trivial, by omega, by omega⟩
  · have : ∀ fs : Fields, fs.toList ≠ [] → ∃ p ∈ fs.toList, width p.2 = maxWidth fs := by
      intro fs
      induction fs using Fields.rec (motive_1 := fun _ => True) with
      | nil => intro h; simp [Fields.toList] at h
      | cons k t fs _ ih =>
        intro _
        by_cases hn : fs.toList = []
        · refine ⟨(k, t), by simp [Fields.toList], ?_⟩
          cases fs with
          | nil => simp [maxWidth]
          | cons => simp [Fields.toList] at hn
        · obtain ⟨p, hp, hp'⟩ := ih hn
          simp only [maxWidth, Fields.toList]
          by_cases hle : width t ≤ maxWidth fs
          · exact ⟨p, by simp [hp], by omega⟩
          · exact ⟨(k, t), by simp, by simp only; omega⟩
      | _ => trivial
    obtain ⟨p, hp, hp'⟩ := this fs hw.1
    exact ⟨_, List.mem_map_of_mem hp, by simp [width, hp']⟩

example : ∃ fs, demoIsa = .sum 10 fs ∧ WF (.sum 10 fs) := ⟨_, rfl, demoIsa_wf⟩
example : WF (.prod 1 (.cons 0 demoIsa (.cons 1 (.enum 0 [.lit 0]) (.cons 2 (.bv 0 3) .nil)))) := by
  simp [WF, WFs, demoIsa_wf, Fields.toList, autos]

/-! ## C08: enum codes -/

/-- The least number not in a set. -/
def IsLeastFree (S : Nat → Prop) (x : Nat) : Prop := ¬ S x ∧ ∀ y, y < x → S y

theorem autos_append (a b : List EVal) : autos (a ++ b) = autos a ++ autos b := by
  induction a with
  | nil => rfl
  | cons e a ih => cases e <;> simp [autos, ih]

/-- C08: explicit members keep their number, every `Auto()` member gets the smallest number that is neither explicit nor given
to an earlier `Auto()` member, and different members have different numbers. -/
theorem C08_enum_codes (hist : List Ty) (c : Nat) (ms : List EVal) (hw : WF (.enum c ms)) :
    ∃ o, assemblerAfter hist (.enum c ms) = .ok o ∧ ∃ code : EVal → Nat,
      (∀ e ∈ ms, code e < 2 ^ o.width ∧ o.assemble (.enum e) = .ok (BV.ofNat o.width (code e))) ∧
      (∀ v : Int, .lit v ∈ ms → (code (.lit v) : Int) = v) ∧
      (∀ e ∈ ms, ∀ e' ∈ ms, code e = code e' → e = e') ∧
      (∀ ms1 i ms2, ms = ms1 ++ .auto i :: ms2 →
        IsLeastFree (fun x => (∃ v, .lit v ∈ ms ∧ code (.lit v) = x) ∨ ∃ j, .auto j ∈ ms1 ∧ code (.auto j) = x)
          (code (.auto i))) := by
  obtain ⟨o, ho⟩ := assemblerAfter_ok hist _ hw
  have hg := build_any hist _ hw (build_of_after ho)
  obtain ⟨hne, hpos, hnd⟩ := hw
  have hcode : ∀ e ∈ ms, enumCode ms e = some ((enumCode ms e).getD 0) := by
    intro e he
    obtain ⟨n, hn⟩ := enumCode_isSome hpos he
    rw [hn]; rfl
  refine ⟨o, ho, fun e => (enumCode ms e).getD 0, ?_, ?_, ?_, ?_⟩
  · intro e he
    have hlt := enumCode_lt (hcode e he)
    refine ⟨by rw [hg.width]; exact hlt, ?_⟩
    rw [hg.width]
    exact hg.assemble (t := .enum c ms) ⟨hne, hpos, hnd⟩ (v := .enum e) he
  · intro v hv
    have := hpos v hv
    simp only [enumCode, this, hv, and_self, if_true, Option.getD_some]
    omega
  · intro e he e' he' hee
    simp only at hee
    have h1 := hcode e he
    rw [hee] at h1
    exact enumCode_inj hnd h1 (hcode e' he')
  · intro ms1 i ms2 hms
    have hi : EVal.auto i ∈ ms := by rw [hms]; simp
    have hau : autos ms = autos ms1 ++ i :: autos ms2 := by rw [hms, autos_append]; rfl
    have hidx : (autos ms)[(autos ms1).length]? = some i := by rw [hau]; simp
    have hc : freeCode (explicitCodes ms) (autos ms1).length = some ((enumCode ms (.auto i)).getD 0) := by
      have := hcode _ hi
      rw [← this]
      simp only [enumCode, (autos_idx hnd).1 hidx]
    have hearly : ∀ j, EVal.auto j ∈ ms1 → ∃ n, n < (autos ms1).length ∧
        freeCode (explicitCodes ms) n = some ((enumCode ms (.auto j)).getD 0) := by
      intro j hj
      obtain ⟨n, hn⟩ := List.getElem?_of_mem (mem_autos.2 hj)
      have hlt : n < (autos ms1).length := (List.getElem?_eq_some_iff.1 hn).1
      have hn' : (autos ms)[n]? = some j := by rw [hau, List.getElem?_append_left hlt, hn]
      refine ⟨n, hlt, ?_⟩
      rw [← hcode _ (by rw [hms]; simp [hj])]
      simp only [enumCode, (autos_idx hnd).1 hn']
    constructor
    · rintro (⟨v, hv, he⟩ | ⟨j, hj, he⟩)
      · simp only at he
        have := enumCode_inj hnd (e := .lit v) (e' := .auto i) (hcode _ hv) (by rw [he]; exact hcode _ hi)
        simp at this
      · obtain ⟨n, hlt, hn⟩ := hearly j hj
        simp only at he
        rw [he] at hn
        have := freeCode_inj hn hc
        omega
    · intro y hy
      simp only at hy ⊢
      by_cases hyU : y ∈ explicitCodes ms
      · left
        obtain ⟨v, hv, he⟩ := mem_explicitCodes.1 hyU
        have := hpos v hv
        exact ⟨v, hv, by simp [enumCode, this, hv, he]⟩
      · right
        obtain ⟨g1, g2⟩ := (freeCode_eq_some _ _ _).1 hc
        have hcnt := cntFree_lt (explicitCodes ms) hy hyU
        rw [g2] at hcnt
        have hy' : freeCode (explicitCodes ms) (cntFree (explicitCodes ms) y) = some y :=
          (freeCode_eq_some _ _ _).2 ⟨hyU, rfl⟩
        have hj := List.getElem?_eq_getElem hcnt
        have hj' : (autos ms)[cntFree (explicitCodes ms) y]? = some (autos ms1)[cntFree (explicitCodes ms) y] := by
          rw [hau, List.getElem?_append_left hcnt, hj]
        refine ⟨(autos ms1)[cntFree (explicitCodes ms) y], mem_autos.1 (List.getElem_mem hcnt), ?_⟩
        simp only [enumCode, (autos_idx hnd).1 hj', hy', Option.getD_some]

example : WF (.enum 0 [.lit 2, .auto 0, .lit 0, .auto 1, .lit 2]) := by simp [WF, autos]

/-- Only acceptable enums are ever in the instance cache. -/
def EnumsOk (st : St) : Prop := ∀ c ms o, (Ty.enum c ms, o) ∈ st.icache → ms ≠ [] ∧ ∀ v, .lit v ∈ ms → 0 ≤ v

theorem enumScan_neg : ∀ (es : List EVal) (a : EnumAcc), (∃ v, .lit v ∈ es ∧ v < 0) → enumScan es a = .error .valueError
  | [], _, h => by simp at h
  | .lit v :: es, a, ⟨w, h1, h2⟩ => by
    simp only [enumScan]
    split
    · rfl
    · next hv =>
      apply enumScan_neg es
      refine ⟨w, ?_, h2⟩
      rcases List.mem_cons.1 h1 with h | h
      · simp only [EVal.lit.injEq] at h; omega
      · exact h
  | .auto i :: es, a, ⟨w, h1, h2⟩ => by
    simp only [enumScan]
    exact enumScan_neg es _ ⟨w, by simpa using h1, h2⟩

theorem enumObj_neg {ms : List EVal} (c : VCache) (h : ∃ v, .lit v ∈ ms ∧ v < 0) :
    enumObj ms c = (.error .valueError, c) := by
  simp [enumObj, enumTables, enumScan_neg ms _ h]

theorem enumObj_nil (c : VCache) : enumObj [] c = (.error .typeError, c) := rfl

theorem cached_enumsOk {t : Ty} {make : St → Except Err AsmObj × St} {st : St} (hst : EnumsOk st)
    (hm : EnumsOk (make st).2)
    (ht : ∀ c ms o, t = .enum c ms → (make st).1 = .ok o → ms ≠ [] ∧ ∀ v, .lit v ∈ ms → 0 ≤ v) :
    EnumsOk (cached t make st).2 := by
  unfold cached
  split
  · exact hst
  · split
    · next h => rw [h] at hm; exact hm
    · next o st' h =>
      rw [h] at hm ht
      intro c ms o' hmem
      rcases List.mem_cons.1 hmem with he | he
      · simp only [Prod.mk.injEq] at he
        exact ht c ms o he.1.symm rfl
      · exact hm c ms o' he

mutual
theorem build_enumsOk : ∀ (t : Ty) (st : St), EnumsOk st → EnumsOk (t.build st).2
  | .bv c w, st, h => by rw [Ty.build]; exact cached_enumsOk h h (by simp)
  | .bit c, st, h => by rw [Ty.build]; exact cached_enumsOk h h (by simp)
  | .enum c ms, st, h => by
    rw [Ty.build]
    refine cached_enumsOk h h ?_
    intro c' ms' o he hm
    simp only [Ty.enum.injEq] at he
    obtain ⟨rfl, rfl⟩ := he
    refine ⟨?_, ?_⟩
    · rintro rfl; rw [enumObj_nil] at hm; simp at hm
    · intro v hv
      by_cases hneg : v < 0
      · rw [enumObj_neg _ ⟨v, hv, hneg⟩] at hm; simp at hm
      · omega
  | .prod c fs, st, h => by
    rw [Ty.build]
    have := buildAll_enumsOk fs st h
    refine cached_enumsOk h ?_ (by simp)
    generalize fs.build st = m at *
    obtain ⟨r, st'⟩ := m
    cases r <;> exact this
  | .sum c fs, st, h => by
    rw [Ty.build]
    have := buildAll_enumsOk fs st h
    refine cached_enumsOk h ?_ (by simp)
    generalize fs.build st = m at *
    obtain ⟨r, st'⟩ := m
    cases r <;> exact this
theorem buildAll_enumsOk : ∀ (fs : Fields) (st : St), EnumsOk st → EnumsOk (fs.build st).2
  | .nil, st, h => by rw [Fields.build]; exact h
  | .cons k t fs, st, h => by
    have h1 := build_enumsOk t st h
    rw [Fields.build]
    generalize t.build st = m at *
    obtain ⟨r, st'⟩ := m
    cases r with
    | error e => exact h1
    | ok o =>
      have h2 := buildAll_enumsOk fs st' h1
      simp only
      generalize fs.build st' = m at *
      obtain ⟨r, st''⟩ := m
      cases r <;> exact h2
end

theorem runHistory_enumsOk (hist : List Ty) : EnumsOk (runHistory hist) := by
  unfold runHistory
  suffices H : ∀ (hist : List Ty) (st : St), EnumsOk st → EnumsOk (hist.foldl (fun st t => (t.build st).2) st) from
    H hist {} (by intro c ms o h; simp at h)
  intro hist
  induction hist with
  | nil => intro st h; exact h
  | cons t l ih => intro st h; exact ih _ (build_enumsOk t st h)

theorem build_enum_miss {hist : List Ty} {c : Nat} {ms : List EVal} (h : ¬ (ms ≠ [] ∧ ∀ v, .lit v ∈ ms → 0 ≤ v)) :
    (runHistory hist).icache.lookup (.enum c ms) = none := by
  cases hl : (runHistory hist).icache.lookup (.enum c ms) with
  | none => rfl
  | some o => exact absurd (runHistory_enumsOk hist c ms o (mem_of_lookup hl)) h

/-- C08: an enum with a negative member is rejected with ValueError, after every history. -/
theorem C08_negative_rejected (hist : List Ty) (c : Nat) (ms : List EVal) (v : Int) (hv : .lit v ∈ ms) (hneg : v < 0) :
    assemblerAfter hist (.enum c ms) = .error .valueError := by
  have := build_enum_miss (hist := hist) (c := c) (ms := ms) (by
    rintro ⟨_, h⟩; have := h v hv; omega)
  simp [assemblerAfter, Ty.build, cached, this, enumObj_neg _ ⟨v, hv, hneg⟩]

/-- C08: an enum without members is rejected with TypeError, after every history. -/
theorem C08_empty_rejected (hist : List Ty) (c : Nat) : assemblerAfter hist (.enum c []) = .error .typeError := by
  have := build_enum_miss (hist := hist) (c := c) (ms := []) (by simp)
  simp [assemblerAfter, Ty.build, cached, this, enumObj_nil]

example : EVal.lit (-1) ∈ [EVal.auto 0, .lit (-1)] ∧ (-1 : Int) < 0 := by decide

/-! ## C09: union tags -/

/-- C09: the tags of a union are 0, 1, ..., n-1 in the order of the printed forms of the options: `assemble_tag` gives the `i`-th option the
number `i` at the tag width, the low bits of an assembled value are its option's tag, and `disassemble_tag` finds the option back.
 -/
theorem C09_tags (hist : List Ty) (c : Nat) (fs : Fields) (hw : WF (.sum c fs)) :
    ∃ o tg, assemblerAfter hist (.sum c fs) = .ok o ∧ o.tag = some tg ∧
      ∀ i k t, fs.toList[i]? = some (k, t) →
        i < 2 ^ tg.width ∧ o.assembleTag k = .ok (BV.ofNat tg.width i) ∧
        o.isValidTag (BV.ofNat tg.width i) = .ok true ∧ o.disassembleTag (BV.ofNat tg.width i) = .ok k ∧
        ∀ v, t.Has v → ∃ b, o.assemble (.sum k v) = .ok b ∧ b.slice 0 tg.width = BV.ofNat tg.width i := by
  obtain ⟨o, ho⟩ := assemblerAfter_ok hist _ hw
  have hg := build_any hist _ hw (build_of_after ho)
  obtain ⟨tg, h1, h2⟩ := hg.tag
  refine ⟨o, tg, ho, h1, ?_⟩
  intro i k t hi
  have hk : k ∈ fs.toList.map (·.1) := List.mem_map_of_mem (f := (·.1)) (List.mem_of_getElem? hi)
  have hlt : i < fs.toList.length := (List.getElem?_eq_some_iff.1 hi).1
  have hidx : optionIndex fs k = i := by
    obtain ⟨t', ht'⟩ := optionIndex_get fs k hk
    have e1 : (fs.toList.map (·.1))[optionIndex fs k]? = some k := by simp [ht']
    have e2 : (fs.toList.map (·.1))[i]? = some k := by simp [hi]
    obtain ⟨a1, a2⟩ := List.getElem?_eq_some_iff.1 e1
    obtain ⟨b1, b2⟩ := List.getElem?_eq_some_iff.1 e2
    exact hw.2.1.getElem_inj_iff.1 (a2.trans b2.symm)
  have hfit := lt_tagBits hlt
  rw [← h2.width] at hfit
  refine ⟨hfit, ?_, ?_, ?_, ?_⟩
  · simp [AsmObj.assembleTag, h1, h2.asm_ok k hk, hidx]
  · simp only [AsmObj.isValidTag, h1]
    rw [h2.accepts _ (by simp [h2.width]) (by rw [ofNat_val_of_lt hfit]; exact hlt)]
  · simp only [AsmObj.disassembleTag, h1]
    rw [h2.accepts _ (by simp [h2.width]) (by rw [ofNat_val_of_lt hfit]; exact hlt), if_pos rfl, h2.dsm_iff,
      ofNat_val_of_lt hfit]
    simp [hi]
  · intro v hv
    have hvs : (Ty.sum c fs).Has (.sum k v) := by
      clear hidx hfit hk hlt h1 h2 hg ho hw
      simp only [Ty.Has]
      induction fs using Fields.rec (motive_1 := fun _ => True) generalizing i with
      | nil => simp [Fields.toList] at hi
      | cons k' t' fs _ ih =>
        simp only [Fields.HasAt]
        cases i with
        | zero =>
          simp only [Fields.toList, List.getElem?_cons_zero, Option.some.injEq, Prod.mk.injEq] at hi
          obtain ⟨rfl, rfl⟩ := hi
          exact Or.inl ⟨rfl, hv⟩
        | succ i => exact Or.inr (ih i (by simpa [Fields.toList] using hi))
      | _ => trivial
    have hlt' := (encode_spec _ hw _ hvs).1
    refine ⟨_, hg.assemble hw hvs, ?_⟩
    have hle : tg.width ≤ width (.sum c fs) := by rw [h2.width]; simp [width]
    apply BV.ext
    · rw [BV.slice_size _ hle]; simp
    · rw [BV.slice_val _ hle, ofNat_val_of_lt hlt', Nat.sub_zero, Nat.pow_zero, Nat.div_one]
      simp only [encode, hidx, BV.ofNat_val]
      rw [h2.width, Nat.add_mul_mod_self_left]

example : ∃ fs, demoIsa = .sum 10 fs ∧ WF (.sum 10 fs) ∧ fs.toList[2]? = some (2, .bv 15 1) := ⟨_, rfl, demoIsa_wf, rfl⟩

theorem insertByRepr_perm (x : Nat × Key × Ty) (l : List (Nat × Key × Ty)) : (insertByRepr x l).Perm (x :: l) := by
  induction l with
  | nil => exact .refl _
  | cons y l ih =>
    simp only [insertByRepr]
    split
    · exact .refl _
    · exact (List.Perm.cons y ih).trans (List.Perm.swap x y l)

theorem sortByRepr_perm (l : List (Nat × Key × Ty)) : (sortByRepr l).Perm l := by
  induction l with
  | nil => exact .refl _
  | cons x l ih => exact (insertByRepr_perm x _).trans (List.Perm.cons x ih)

theorem insertByRepr_sorted (x : Nat × Key × Ty) (l : List (Nat × Key × Ty)) (h : l.Pairwise (fun a b => a.1 ≤ b.1)) :
    (insertByRepr x l).Pairwise (fun a b => a.1 ≤ b.1) := by
  induction l with
  | nil => simp [insertByRepr]
  | cons y l ih =>
    obtain ⟨h1, h2⟩ := List.pairwise_cons.1 h
    simp only [insertByRepr]
    split
    · next hxy =>
      refine List.pairwise_cons.2 ⟨?_, h⟩
      intro z hz
      rcases List.mem_cons.1 hz with rfl | hz
      · exact hxy
      · have := h1 z hz; omega
    · next hxy =>
      refine List.pairwise_cons.2 ⟨?_, ih h2⟩
      intro z hz
      rcases List.mem_cons.1 ((insertByRepr_perm x l).mem_iff.1 hz) with rfl | hz
      · omega
      · exact h1 z hz

theorem sortByRepr_sorted (l : List (Nat × Key × Ty)) : (sortByRepr l).Pairwise (fun a b => a.1 ≤ b.1) := by
  induction l with
  | nil => exact .nil
  | cons x l ih => exact insertByRepr_sorted x _ ih

theorem toList_ofList (l : List (Key × Ty)) : (Fields.ofList l).toList = l := by
  induction l with
  | nil => rfl
  | cons p l ih => simp [Fields.ofList, Fields.toList, ih]

theorem sorted_index {l : List (Nat × Key × Ty)} (hs : l.Pairwise (fun a b => a.1 ≤ b.1)) (hn : (l.map (·.1)).Nodup)
    {x : Nat × Key × Ty} (hx : x ∈ l) : l[l.countP (fun y => decide (y.1 < x.1))]? = some x := by
  induction l with
  | nil => simp at hx
  | cons y l ih =>
    obtain ⟨h1, h2⟩ := List.pairwise_cons.1 hs
    simp only [List.map_cons, List.nodup_cons] at hn
    rcases List.mem_cons.1 hx with rfl | hx
    · have : l.countP (fun y => decide (y.1 < x.1)) = 0 := by
        rw [List.countP_eq_zero]
        intro z hz; have := h1 z hz; simp; omega
      simp [this]
    · have hlt : y.1 < x.1 := by
        have := h1 x hx
        have hne : y.1 ≠ x.1 := fun h => hn.1 (h ▸ List.mem_map_of_mem hx)
        omega
      simp only [List.countP_cons, hlt, decide_true, if_true, List.getElem?_cons_succ]
      exact ih h2 hn.2 hx

/-- C09, order independence: when the printed forms of the options differ, the tag of an option is the number of options whose printed
form is smaller, in whatever order the options were declared. -/
theorem C09_declaration_order (hist : List Ty) (c : Nat) (opts : List (Nat × Key × Ty))
    (hne : opts ≠ []) (hrank : (opts.map (·.1)).Nodup) (hkeys : (opts.map (·.2.1)).Nodup) (hwf : ∀ x ∈ opts, WF x.2.2) :
    ∃ o, assemblerAfter hist (.mkSum c opts) = .ok o ∧
      ∀ r k t, (r, k, t) ∈ opts →
        o.assembleTag k = .ok (BV.ofNat (tagBits opts.length) (opts.countP (fun y => decide (y.1 < r)))) := by
  have hp := sortByRepr_perm opts
  have hw : WF (.mkSum c opts) := by
    simp only [Ty.mkSum, WF, toList_ofList]
    refine ⟨?_, ?_, ?_⟩
    · intro h
      have := hp.length_eq
      simp only [List.map_eq_nil_iff] at h
      rw [h] at this
      exact hne (List.length_eq_zero_iff.1 this.symm)
    · rw [List.map_map]
      exact ((hp.map _).nodup_iff).2 hkeys
    · have : ∀ l : List (Nat × Key × Ty), (∀ x ∈ l, WF x.2.2) → WFs (Fields.ofList (l.map (·.2))) := by
        intro l
        induction l with
        | nil => intro _; trivial
        | cons x l ih =>
          intro h
          exact ⟨h x (by simp), ih (fun y hy => h y (by simp [hy]))⟩
      exact this _ (fun x hx => hwf x (hp.mem_iff.1 hx))
  obtain ⟨o, tg, h1, h2, h3⟩ := C09_tags hist c _ hw
  obtain ⟨o', tg', h1', h2', h3', _⟩ := C07_union_layout hist c _ hw
  rw [h1, Except.ok.injEq] at h1'; subst h1'
  rw [h2, Option.some.injEq] at h2'; subst h2'
  refine ⟨o, h1, ?_⟩
  intro r k t hm
  have hs := sorted_index (sortByRepr_sorted opts) (((hp.map _).nodup_iff).2 hrank) (hp.mem_iff.2 hm)
  rw [hp.countP_eq] at hs
  have hlen : (Fields.ofList ((sortByRepr opts).map (·.2))).toList.length = opts.length := by
    rw [toList_ofList, List.length_map, hp.length_eq]
  rw [hlen] at h3'
  have := (h3 _ k t (by rw [toList_ofList, List.getElem?_map, hs]; rfl)).2.1
  rw [h3'] at this
  exact this

/-- C09, order independence for whole opcodes: two declarations listing the same options in different orders give every value
the same opcode. -/
theorem C09_opcode_order (hist hist' : List Ty) (c c' : Nat) (opts opts' : List (Nat × Key × Ty)) (hp : opts.Perm opts')
    (hne : opts ≠ []) (hrank : (opts.map (·.1)).Nodup) (hkeys : (opts.map (·.2.1)).Nodup) (hwf : ∀ x ∈ opts, WF x.2.2) :
    ∃ o o', assemblerAfter hist (.mkSum c opts) = .ok o ∧ assemblerAfter hist' (.mkSum c' opts') = .ok o' ∧
      ∀ v, (Ty.mkSum c opts).Has v → o.assemble v = o'.assemble v := by
  have hs : sortByRepr opts = sortByRepr opts' := by
    have p1 := sortByRepr_perm opts
    have p2 := sortByRepr_perm opts'
    have hpp : (sortByRepr opts).Perm (sortByRepr opts') := p1.trans (hp.trans p2.symm)
    apply List.ext_getElem?
    intro i
    have hn := ((p1.map (·.1)).nodup_iff).2 hrank
    have hn' := ((hpp.map (·.1)).nodup_iff).1 hn
    have key : ∀ l l' : List (Nat × Key × Ty), l.Perm l' → l.Pairwise (fun a b => a.1 ≤ b.1) →
        l'.Pairwise (fun a b => a.1 ≤ b.1) → (l.map (·.1)).Nodup → ∀ (i : Nat) x, l[i]? = some x → l'[i]? = some x := by
      intro l l' hll h1 h2 hn i x hx
      have hm := List.mem_of_getElem? hx
      have e1 := sorted_index h1 hn hm
      have e2 := sorted_index h2 (((hll.map (·.1)).nodup_iff).1 hn) (hll.mem_iff.1 hm)
      rw [← hll.countP_eq] at e2
      have hi : l.countP (fun y => decide (y.1 < x.1)) = i := by
        obtain ⟨a1, a2⟩ := List.getElem?_eq_some_iff.1 e1
        obtain ⟨b1, b2⟩ := List.getElem?_eq_some_iff.1 hx
        exact (List.Nodup.of_map _ hn).getElem_inj_iff.1 (a2.trans b2.symm)
      rw [hi] at e2; exact e2
    apply Option.ext
    intro x
    exact ⟨key _ _ hpp (sortByRepr_sorted _) (sortByRepr_sorted _) hn i x,
      key _ _ hpp.symm (sortByRepr_sorted _) (sortByRepr_sorted _) hn' i x⟩
  have hw : WF (.mkSum c opts) := by
    have hpm := sortByRepr_perm opts
    simp only [Ty.mkSum, WF, toList_ofList]
    refine ⟨?_, ?_, ?_⟩
    · intro h
      have := hpm.length_eq
      simp only [List.map_eq_nil_iff] at h
      rw [h] at this
      exact hne (List.length_eq_zero_iff.1 this.symm)
    · rw [List.map_map]
      exact ((hpm.map _).nodup_iff).2 hkeys
    · have : ∀ l : List (Nat × Key × Ty), (∀ x ∈ l, WF x.2.2) → WFs (Fields.ofList (l.map (·.2))) := by
        intro l
        induction l with
        | nil => intro _; trivial
        | cons x l ih =>
          intro h
          exact ⟨h x (by simp), ih (fun y hy => h y (by simp [hy]))⟩
      exact this _ (fun x hx => hwf x (hpm.mem_iff.1 hx))
  have hw' : WF (.mkSum c' opts') := by
    simp only [Ty.mkSum, WF] at hw ⊢
    rw [← hs]; exact hw
  obtain ⟨o, ho⟩ := assemblerAfter_ok hist _ hw
  obtain ⟨o', ho'⟩ := assemblerAfter_ok hist' _ hw'
  refine ⟨o, o', ho, ho', ?_⟩
  intro v hv
  have hv' : (Ty.mkSum c' opts').Has v := by
    cases v <;> simp only [Ty.mkSum, Ty.Has] at hv ⊢
    rw [← hs]; exact hv
  rw [(build_any hist _ hw (build_of_after ho)).assemble hw hv, (build_any hist' _ hw' (build_of_after ho')).assemble hw' hv']
  cases v <;> simp only [Ty.mkSum, Ty.Has] at hv
  simp only [Ty.mkSum, encode, width, ← hs]

example : ∃ opts opts' : List (Nat × Key × Ty), opts ≠ opts' ∧ opts.Perm opts' ∧ opts ≠ [] ∧ (opts.map (·.1)).Nodup ∧
    (opts.map (·.2.1)).Nodup ∧ ∀ x ∈ opts, WF x.2.2 :=
  ⟨[(5, 0, .bit 0), (3, 1, .bv 0 7)], [(3, 1, .bv 0 7), (5, 0, .bit 0)], by decide, .swap .., by decide, by decide, by decide,
    by simp [WF]⟩

/-! ## C10: sub-fields -/

/-- C10: for every path selecting a sub-value `v'` of `v`, `Assembler(T).sub[path]` exists, and slicing the opcode of `v` at its `idx`
gives the opcode of `v'`; if `v'` is a union value, slicing at `tag_idx` gives its tag. -/
theorem C10_sub_extract (hist : List Ty) (t : Ty) (v : Val) (hw : WF t) (hv : t.Has v) (path : List Key) (t' : Ty) (v' : Val)
    (hsub : subValue t v path = some (t', v')) :
    ∃ o b s st, assemblerAfter hist t = .ok o ∧ o.assemble v = .ok b ∧
      (AsmObj.sub t o).path path (t.build (runHistory hist)).2 = (.ok s, st) ∧
      s.obj.assemble v' = .ok (b.slice s.idx.1 s.idx.2) ∧
      ∀ c fs k p, t' = .sum c fs → v' = .sum k p → ∃ lo hi, s.tagIdx = .ok (lo, hi) ∧
        s.obj.assembleTag k = .ok (b.slice lo hi) := by
  obtain ⟨o, ho⟩ := assemblerAfter_ok hist t hw
  have hg := build_any hist t hw (build_of_after ho)
  have hS := (build_inv Env.any t _ (reqs_any t) (runHistory_inv Env.any hist (fun t _ => reqs_any t))).1
  obtain ⟨s, st, h1, h2, h3, h4, h5, d, h6, h7, h8⟩ := path_spec path t v (AsmObj.sub t o) _ t' v' hS hw hv rfl hg hsub
  have hlt := (encode_spec t hw v hv).1
  have hd : s.offset = d := by rw [h6]; simp [AsmObj.sub]
  refine ⟨o, _, s, st, ho, hg.assemble hw hv, h1, ?_, ?_⟩
  · rw [h3.assemble h4 h5]
    congr 1
    simp only [SubObj.idx, hd, h3.width]
    apply BV.ext
    · rw [BV.slice_size _ (by simpa using h7)]; simp
    · rw [BV.slice_val _ (by simpa using h7), ofNat_val_of_lt hlt, ofNat_val_of_lt (encode_spec t' h4 v' h5).1, ← h8]
      congr 2; omega
  · intro c fs k p ht' hv'
    subst ht'; subst hv'
    obtain ⟨tg, g1, g2⟩ := h3.tag
    have hk := hasAt_mem fs k p h5
    have hfit := lt_tagBits (optionIndex_lt fs k hk)
    refine ⟨s.offset + 0, s.offset + tg.width, by simp [SubObj.tagIdx, g1], ?_⟩
    simp only [AsmObj.assembleTag, g1, g2.asm_ok k hk]
    congr 1
    have hle : d + tagBits fs.toList.length ≤ width t := by simp only [width] at h7; omega
    simp only [hd, g2.width, Nat.add_zero]
    apply BV.ext
    · rw [BV.slice_size _ (by simpa using hle)]; simp
    · rw [BV.slice_val _ (by simpa using hle), ofNat_val_of_lt hlt, ofNat_val_of_lt hfit]
      have := congrArg (· % 2 ^ tagBits fs.toList.length) h8
      simp only [encode, Nat.add_mul_mod_self_left] at this
      rw [mod_mod_pow _ _ _ (by simp [width]), Nat.mod_eq_of_lt hfit] at this
      rw [← this]; congr 2; omega

example : WF (.prod 1 (.cons 7 demoIsa .nil)) ∧ (Ty.prod 1 (.cons 7 demoIsa .nil)).Has (.prod [demoVal]) ∧
    subValue (.prod 1 (.cons 7 demoIsa .nil)) (.prod [demoVal]) [7, 0, 1] = some (.bv 13 5, .bits (BV.ofNat 5 19)) := by
  refine ⟨by simp [WF, WFs, demoIsa_wf, Fields.toList], by simp [Ty.Has, Fields.HasAll, demoVal_has], rfl⟩

end Peak
