import Verif.Model.Assembler
import Verif.Spec.Assembler
import Verif.Lemmas.Validator2
import Mathlib.Data.List.Nodup
import Mathlib.Data.List.Perm.Subperm

namespace Peak
open Peak.Spec

theorem nodup_subset_length {l m : List Nat} (h : l.Nodup) (hs : ∀ x ∈ l, x ∈ m) :
    l.length ≤ m.length :=
  (List.subperm_of_subset h hs).length_le

/-! ### `nextFree` -/

theorem nextFree_spec (used : List Nat) (n c : Nat) :
    c ≤ nextFree used n c ∧ (∀ y, c ≤ y → y < nextFree used n c → y ∈ used) ∧
      (nextFree used n c ∉ used ∨ nextFree used n c = c + n) := by
  induction n generalizing c with
  | zero => simp [nextFree]; intro y h1 h2; omega
  | succ n ih =>
    simp only [nextFree]
    split
    · next h =>
      obtain ⟨h1, h2, h3⟩ := ih (c + 1)
      refine ⟨by omega, ?_, ?_⟩
      · intro y hy1 hy2
        by_cases hc : y = c
        · rw [hc]; exact h
        · exact h2 y (by omega) hy2
      · rcases h3 with h3 | h3
        · exact Or.inl h3
        · exact Or.inr (by omega)
    · next h => exact ⟨Nat.le_refl _, fun y h1 h2 => by omega, Or.inl h⟩

theorem nextFree_not_mem (used : List Nat) (c : Nat) : nextFree used used.length c ∉ used := by
  obtain ⟨h1, h2, h3⟩ := nextFree_spec used used.length c
  rcases h3 with h3 | h3
  · exact h3
  · intro hm
    have : (List.range' c (used.length + 1)).length ≤ used.length := by
      apply nodup_subset_length List.nodup_range'
      intro x hx
      rw [List.mem_range'_1] at hx
      by_cases hx' : x = c + used.length
      · rw [hx', ← h3]; exact hm
      · exact h2 x hx.1 (by omega)
    simp at this; omega

/-! ### counting free codes -/

/-- number of codes below `x` not in `U` -/
def cntFree (U : List Nat) (x : Nat) : Nat := ((List.range x).filter (fun y => y ∉ U)).length

theorem cntFree_succ (U : List Nat) (x : Nat) :
    cntFree U (x + 1) = cntFree U x + (if x ∈ U then 0 else 1) := by
  unfold cntFree
  rw [List.range_succ, List.filter_append]
  by_cases h : x ∈ U <;> simp [h]

theorem cntFree_mono (U : List Nat) {x y : Nat} (h : x ≤ y) : cntFree U x ≤ cntFree U y := by
  induction h with
  | refl => exact Nat.le_refl _
  | step h ih => rw [cntFree_succ]; omega

theorem cntFree_const (U : List Nat) {x y : Nat} (h : x ≤ y) (hU : ∀ z, x ≤ z → z < y → z ∈ U) :
    cntFree U y = cntFree U x := by
  induction h with
  | refl => rfl
  | @step m h ih =>
    have h' : x ≤ m := h
    rw [cntFree_succ, ih (fun z h1 h2 => hU z h1 (by omega))]
    simp [hU m h' (by omega)]

theorem cntFree_lt (U : List Nat) {x y : Nat} (h : x < y) (hx : x ∉ U) : cntFree U x < cntFree U y := by
  have h1 := cntFree_succ U x
  have h2 := cntFree_mono U (show x + 1 ≤ y from h)
  simp [hx] at h1; omega

theorem le_cntFree (U : List Nat) (x : Nat) : x ≤ cntFree U x + U.length := by
  have h1 : ((List.range x).filter (fun y => decide (y ∈ U))).length ≤ U.length := by
    apply nodup_subset_length (List.nodup_range.filter _)
    intro y hy; simpa using (List.mem_filter.1 hy).2
  have h2 : ((List.range x).filter (fun y => decide (y ∈ U))).length + cntFree U x = x := by
    have := List.length_eq_length_filter_add (l := List.range x) (fun y => decide (y ∈ U))
    simp only [List.length_range] at this
    unfold cntFree
    have e : (fun y => decide (y ∉ U)) = (fun y => !decide (y ∈ U)) := by funext y; simp
    rw [e]; omega
  omega

theorem freeCode_eq_some (U : List Nat) (j x : Nat) :
    freeCode U j = some x ↔ x ∉ U ∧ cntFree U x = j := by
  have key : ∀ x, x ∉ U → ∀ N, x < N → ((List.range N).filter (fun y => decide (y ∉ U)))[cntFree U x]? = some x := by
    intro x hx N hN
    have e : List.range N = List.range x ++ x :: (List.range' (x + 1) (N - x - 1)) := by
      rw [List.range_eq_range', List.range_eq_range',
        show N = x + ((N - x - 1) + 1) by omega, ← List.range'_append]
      simp only [Nat.zero_add, Nat.one_mul]
      rw [show x + (N - x - 1 + 1) - x - 1 = N - x - 1 by omega, List.range'_succ]
    rw [e, List.filter_append, List.filter_cons]
    simp only [hx, not_false_eq_true, decide_true, if_true]
    unfold cntFree
    simp
  constructor
  · intro h
    unfold freeCode at h
    have hm : x ∈ (List.range (j + 1 + U.length)).filter (fun y => decide (y ∉ U)) := List.mem_of_getElem? h
    have hxU : x ∉ U := by simpa using (List.mem_filter.1 hm).2
    have hxN : x < j + 1 + U.length := by simpa using (List.mem_filter.1 hm).1
    refine ⟨hxU, ?_⟩
    have hk := key x hxU _ hxN
    have hnd : ((List.range (j + 1 + U.length)).filter (fun y => decide (y ∉ U))).Nodup := List.nodup_range.filter _
    obtain ⟨h1, h2⟩ := List.getElem?_eq_some_iff.1 h
    obtain ⟨h3, h4⟩ := List.getElem?_eq_some_iff.1 hk
    exact (hnd.getElem_inj_iff.1 (h2.trans h4.symm)).symm
  · rintro ⟨h1, rfl⟩
    unfold freeCode
    apply key x h1
    have := le_cntFree U x; omega

theorem freeCode_isSome (U : List Nat) (j : Nat) : ∃ x, freeCode U j = some x := by
  unfold freeCode
  have h : j < ((List.range (j + 1 + U.length)).filter (fun y => decide (y ∉ U))).length := by
    have := le_cntFree U (j + 1 + U.length)
    unfold cntFree at this; omega
  exact ⟨_, List.getElem?_eq_getElem h⟩

theorem freeCode_inj {U : List Nat} {i j x : Nat} (h1 : freeCode U i = some x) (h2 : freeCode U j = some x) :
    i = j := by
  rw [freeCode_eq_some] at h1 h2; omega

/-! ### first loop of `_enum` -/

theorem enumScan_spec : ∀ (es : List EVal) (a r : EnumAcc), enumScan es a = .ok r →
    (∀ v, EVal.lit v ∈ es → 0 ≤ v) ∧
    r.free = a.free ++ (autos es).map EVal.auto ∧
    r.used = (explicitCodes es).reverse ++ a.used ∧
    (∀ x, x ∈ r.used ↔ x ∈ explicitCodes es ∨ x ∈ a.used) ∧
    (∀ e c, (e, c) ∈ r.asm ↔ (e, c) ∈ a.asm ∨ ∃ v, e = .lit v ∧ e ∈ es ∧ c = v.toNat) ∧
    (∀ e c, (c, e) ∈ r.dsm ↔ (c, e) ∈ a.dsm ∨ ∃ v, e = .lit v ∧ e ∈ es ∧ c = v.toNat) := by
  intro es
  induction es with
  | nil => intro a r h; simp only [enumScan, Except.ok.injEq] at h; subst h; simp [autos, explicitCodes]
  | cons e es ih =>
    intro a r h
    cases e with
    | lit v =>
      simp only [enumScan] at h
      split at h
      · simp at h
      · next hv =>
        obtain ⟨h1, h2, h3, h4, h5, h6⟩ := ih _ _ h
        refine ⟨?_, ?_, ?_, ?_, ?_, ?_⟩
        · intro w hw
          rcases List.mem_cons.1 hw with hw | hw
          · simp only [EVal.lit.injEq] at hw; omega
          · exact h1 w hw
        · simpa [autos] using h2
        · simp [explicitCodes, h3]
        · intro x; rw [h4]; simp [explicitCodes]; grind
        · intro e c; rw [h5]; simp; grind
        · intro e c; rw [h6]; simp; grind
    | auto i =>
      simp only [enumScan] at h
      obtain ⟨h1, h2, h3, h4, h5, h6⟩ := ih _ _ h
      refine ⟨?_, ?_, ?_, ?_, ?_, ?_⟩
      · intro w hw
        rcases List.mem_cons.1 hw with hw | hw
        · simp at hw
        · exact h1 w hw
      · rw [h2]; simp [autos]
      · simp [explicitCodes, h3]
      · intro x; rw [h4]; simp [explicitCodes]
      · intro e c; rw [h5]; simp; grind
      · intro e c; rw [h6]; simp; grind

theorem enumScan_ok (es : List EVal) (h : ∀ v, EVal.lit v ∈ es → 0 ≤ v) (a : EnumAcc) :
    ∃ r, enumScan es a = .ok r := by
  induction es generalizing a with
  | nil => exact ⟨a, rfl⟩
  | cons e es ih =>
    cases e with
    | lit v =>
      have := h v (by simp)
      simp only [enumScan]
      rw [if_neg (by omega)]
      exact ih (fun w hw => h w (by simp [hw])) _
    | auto i =>
      simp only [enumScan]
      exact ih (fun w hw => h w (by simp [hw])) _

/-! ### second loop of `_enum` -/

/-- Assigning the autos `is` in order, with `B` the first code not yet considered. -/
theorem enumAuto_spec (U : List Nat) : ∀ (is : List EVal) (c B : Nat) (a : EnumAcc),
    c ≤ B → (∀ y, c ≤ y → y < B → y ∈ a.used) →
    (∀ x, x ∈ a.used ↔ x ∈ U ∨ x < B) →
    (∀ e n, (e, n) ∈ (enumAuto is c a).asm ↔
      (e, n) ∈ a.asm ∨ ∃ j, is[j]? = some e ∧ freeCode U (cntFree U B + j) = some n) ∧
    (∀ e n, (n, e) ∈ (enumAuto is c a).dsm ↔
      (n, e) ∈ a.dsm ∨ ∃ j, is[j]? = some e ∧ freeCode U (cntFree U B + j) = some n) := by
  intro is
  induction is with
  | nil => intro c B a _ _ _; simp [enumAuto]
  | cons i is ih =>
    intro c B a hcB hcu hu
    obtain ⟨n1, n2, _⟩ := nextFree_spec a.used a.used.length c
    have n3 := nextFree_not_mem a.used c
    simp only [enumAuto]
    generalize nextFree a.used a.used.length c = x at *
    have hBx : B ≤ x := by
      rcases Nat.lt_or_ge x B with h | h
      · exact absurd ((hu x).2 (Or.inr h)) n3
      · exact h
    have hxU : x ∉ U := fun h => n3 ((hu x).2 (Or.inl h))
    have hmid : ∀ z, B ≤ z → z < x → z ∈ U := by
      intro z h1 h2
      rcases (hu z).1 (n2 z (by omega) h2) with h | h
      · exact h
      · omega
    have hcx : cntFree U x = cntFree U B := cntFree_const U hBx hmid
    have hcx1 : cntFree U (x + 1) = cntFree U B + 1 := by rw [cntFree_succ, hcx]; simp [hxU]
    have hfx : ∀ n, freeCode U (cntFree U B) = some n ↔ n = x := by
      intro n
      have hx : freeCode U (cntFree U B) = some x := (freeCode_eq_some U _ _).2 ⟨hxU, hcx⟩
      rw [hx]; simp [eq_comm]
    obtain ⟨r1, r2⟩ := ih x (x + 1)
      { a with asm := (i, x) :: a.asm, dsm := (x, i) :: a.dsm, used := x :: a.used }
      (by omega)
      (by intro y h1 h2; have : y = x := by omega
          simp [this])
      (by
        intro y
        simp only [List.mem_cons, hu]
        constructor
        · rintro (h | h | h)
          · right; omega
          · left; exact h
          · right; omega
        · rintro (h | h)
          · right; left; exact h
          · by_cases h1 : y < B
            · right; right; exact h1
            · by_cases h2 : y = x
              · left; exact h2
              · right; left; exact hmid y (by omega) (by omega))
    have hidx : ∀ (e : EVal) n, (∃ j, (i :: is)[j]? = some e ∧ freeCode U (cntFree U B + j) = some n) ↔
        (e = i ∧ n = x) ∨ ∃ j, is[j]? = some e ∧ freeCode U (cntFree U (x + 1) + j) = some n := by
      intro e n
      constructor
      · rintro ⟨j, h1, h2⟩
        cases j with
        | zero => left; simp at h1; simp only [Nat.add_zero] at h2; exact ⟨h1.symm, (hfx n).1 h2⟩
        | succ j => right; refine ⟨j, by simpa using h1, ?_⟩; rw [hcx1, ← h2]; congr 1; omega
      · rintro (⟨h1, h2⟩ | ⟨j, h1, h2⟩)
        · exact ⟨0, by simp [h1], by simpa using (hfx n).2 h2⟩
        · refine ⟨j + 1, by simpa using h1, ?_⟩; rw [← h2, hcx1]; congr 1; omega
    constructor
    · intro e n
      rw [r1, hidx]; simp only [List.mem_cons, Prod.mk.injEq]
      constructor
      · rintro ((h | h) | h)
        · right; left; exact h
        · left; exact h
        · right; right; exact h
      · rintro (h | h | h)
        · left; right; exact h
        · left; left; exact h
        · right; exact h
    · intro e n
      rw [r2, hidx]; simp only [List.mem_cons, Prod.mk.injEq]
      constructor
      · rintro ((h | h) | h)
        · right; left; exact ⟨h.2, h.1⟩
        · left; exact h
        · right; right; exact h
      · rintro (h | h | h)
        · left; right; exact h
        · left; left; exact ⟨h.2, h.1⟩
        · right; exact h

theorem cntFree_zero (U : List Nat) : cntFree U 0 = 0 := rfl

theorem mem_autos {ms : List EVal} {i : Nat} : i ∈ autos ms ↔ EVal.auto i ∈ ms := by
  induction ms with
  | nil => simp [autos]
  | cons e ms ih => cases e <;> simp [autos, ih]

theorem mem_explicitCodes {ms : List EVal} {x : Nat} : x ∈ explicitCodes ms ↔ ∃ v, .lit v ∈ ms ∧ x = v.toNat := by
  induction ms with
  | nil => simp [explicitCodes]
  | cons e ms ih => cases e <;> simp [explicitCodes, ih]

theorem autos_idx {ms : List EVal} (h : (autos ms).Nodup) {i j : Nat} :
    (autos ms)[j]? = some i ↔ (autos ms).idxOf? i = some j := by
  rw [List.idxOf?_eq_some_iff]
  constructor
  · intro hj
    obtain ⟨hlt, he⟩ := List.getElem?_eq_some_iff.1 hj
    refine ⟨hlt, he, ?_⟩
    intro j' hj' he'
    have := h.getElem_inj_iff.1 (he'.trans he.symm); omega
  · rintro ⟨hlt, he, _⟩
    exact List.getElem?_eq_some_iff.2 ⟨hlt, he⟩

/-- The tables of an enum are the graph of its codes. -/
theorem enumTables_spec {ms : List EVal} {a : EnumAcc} (h : enumTables ms = .ok a) (hn : (autos ms).Nodup) :
    (∀ e n, (e, n) ∈ a.asm ↔ enumCode ms e = some n) ∧
    (∀ e n, (n, e) ∈ a.dsm ↔ enumCode ms e = some n) := by
  unfold enumTables at h
  split at h
  · simp at h
  · next b hb =>
    simp only [Except.ok.injEq] at h
    obtain ⟨h1, h2, h3, h4, h5, h6⟩ := enumScan_spec _ _ _ hb
    simp only [List.nil_append, List.append_nil, List.not_mem_nil, or_false, false_or] at h2 h3 h4 h5 h6
    obtain ⟨r1, r2⟩ := enumAuto_spec (explicitCodes ms) b.free 0 0 b (Nat.le_refl _) (by intro y _ h; omega)
      (by intro x; rw [h4]; simp)
    rw [h] at r1 r2
    have key : ∀ e n, ((∃ v, e = .lit v ∧ e ∈ ms ∧ n = v.toNat) ∨
        ∃ j, b.free[j]? = some e ∧ freeCode (explicitCodes ms) (cntFree (explicitCodes ms) 0 + j) = some n) ↔
        enumCode ms e = some n := by
      intro e n
      rw [h2, cntFree_zero]
      cases e with
      | lit v =>
        have hA : ∀ j : Nat, ¬ ((autos ms).map EVal.auto)[j]? = some (EVal.lit v) := by
          intro j hj; simp at hj
        simp only [enumCode]
        constructor
        · rintro (⟨w, e1, e2, e3⟩ | ⟨j, e1, _⟩)
          · cases e1; rw [if_pos ⟨h1 v e2, e2⟩, e3]
          · exact absurd e1 (hA j)
        · intro hh
          split at hh
          · next hc => left; exact ⟨v, rfl, hc.2, by simpa using hh.symm⟩
          · simp at hh
      | auto i =>
        simp only [enumCode]
        constructor
        · rintro (⟨w, e1, _⟩ | ⟨j, e1, e2⟩)
          · simp at e1
          · have : (autos ms)[j]? = some i := by simpa using e1
            rw [(autos_idx hn).1 this]; simpa using e2
        · intro hh
          split at hh
          · simp at hh
          · next j hj =>
            right; refine ⟨j, ?_, by simpa using hh⟩
            simp [(autos_idx hn).2 hj]
    constructor
    · intro e n; rw [r1, h5]; exact key e n
    · intro e n; rw [r2, h6]; exact key e n

theorem enumCode_mem {ms : List EVal} {e : EVal} {n : Nat} (h : enumCode ms e = some n) : e ∈ ms := by
  cases e with
  | lit v =>
    simp only [enumCode] at h
    split at h
    · next hc => exact hc.2
    · simp at h
  | auto i =>
    simp only [enumCode] at h
    split at h
    · simp at h
    · next j hj =>
      rw [List.idxOf?_eq_some_iff] at hj
      obtain ⟨hlt, he, _⟩ := hj
      exact mem_autos.1 (he ▸ List.getElem_mem hlt)

theorem enumCode_isSome {ms : List EVal} (hpos : ∀ v, EVal.lit v ∈ ms → 0 ≤ v) {e : EVal} (h : e ∈ ms) :
    ∃ n, enumCode ms e = some n := by
  cases e with
  | lit v => exact ⟨v.toNat, by simp [enumCode, hpos v h, h]⟩
  | auto i =>
    simp only [enumCode]
    have : i ∈ autos ms := mem_autos.2 h
    cases hj : (autos ms).idxOf? i with
    | none => rw [List.idxOf?_eq_none_iff] at hj; exact absurd this hj
    | some j => exact freeCode_isSome _ _

/-- Different members have different codes. -/
theorem enumCode_inj {ms : List EVal} (hn : (autos ms).Nodup) {e e' : EVal} {n : Nat}
    (h : enumCode ms e = some n) (h' : enumCode ms e' = some n) : e = e' := by
  have hx : ∀ (v : Int) (i : Nat), enumCode ms (.lit v) = some n → enumCode ms (.auto i) = some n → False := by
    intro v i h h'
    have hm := enumCode_mem h
    simp only [enumCode] at h h'
    split at h
    · split at h'
      · simp at h'
      · have := ((freeCode_eq_some _ _ _).1 h').1
        apply this; rw [mem_explicitCodes]
        exact ⟨v, hm, by simpa using h.symm⟩
    · simp at h
  cases e with
  | lit v =>
    cases e' with
    | lit v' =>
      simp only [enumCode] at h h'
      split at h <;> split at h' <;> simp at h h'
      congr 1; omega
    | auto i => exact (hx v i h h').elim
  | auto i =>
    cases e' with
    | lit v' => exact (hx v' i h' h).elim
    | auto i' =>
      simp only [enumCode] at h h'
      split at h
      · simp at h
      · next j hj =>
        split at h'
        · simp at h'
        · next j' hj' =>
          have := freeCode_inj h h'
          subst this
          have a1 := (autos_idx hn).2 hj
          have a2 := (autos_idx hn).2 hj'
          rw [a1] at a2; simpa using a2

end Peak
