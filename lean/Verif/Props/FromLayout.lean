import Verif.Spec.FromLayout
import Verif.Lemmas.Layout
/-!
# C92: a word from fields at the ranges of any layout
-/

namespace Peak.FL
open Peak Peak.Spec

/-! ## which layouts are refused -/

theorem insert_perm (x : Nat × Nat) : ∀ l, (insertRange x l).Perm (x :: l)
  | [] => .refl _
  | y :: l => by
    simp only [insertRange]
    split
    · exact .refl _
    · exact ((insert_perm x l).cons y).trans (.swap x y l)

theorem sort_perm : ∀ l, (sortRanges l).Perm l
  | [] => .refl _
  | x :: l => (insert_perm x _).trans ((sort_perm l).cons x)

theorem insert_sorted (x : Nat × Nat) : ∀ l : List (Nat × Nat), l.Pairwise (fun a b => a.1 ≤ b.1) → (insertRange x l).Pairwise (fun a b => a.1 ≤ b.1)
  | [], _ => by simp [insertRange]
  | y :: l, h => by
    obtain ⟨h1, h2⟩ := List.pairwise_cons.mp h
    simp only [insertRange]
    split
    · next hle =>
      have hxy : x.1 ≤ y.1 := by
        simp only [rangeLe, Bool.or_eq_true, decide_eq_true_eq, Bool.and_eq_true, beq_iff_eq] at hle
        omega
      refine List.pairwise_cons.mpr ⟨?_, h⟩
      intro z hz
      rcases List.mem_cons.mp hz with rfl | hz
      · exact hxy
      · exact Nat.le_trans hxy (h1 z hz)
    · next hle =>
      have hyx : y.1 ≤ x.1 := by
        simp only [rangeLe, Bool.or_eq_true, decide_eq_true_eq, Bool.and_eq_true, beq_iff_eq] at hle
        omega
      refine List.pairwise_cons.mpr ⟨?_, insert_sorted x l h2⟩
      intro z hz
      rcases insertRange_mem.mp hz with rfl | hz
      · exact hyx
      · exact h1 z hz

theorem sort_sorted : ∀ l, (sortRanges l).Pairwise (fun a b => a.1 ≤ b.1)
  | [] => .nil
  | x :: l => insert_sorted x _ (sort_sorted l)

theorem apart_perm {l l' : List (Nat × Nat)} (h : l.Perm l') : Apart l ↔ Apart l' :=
  h.pairwise_iff (fun {a b} hab i hi => hab i ⟨hi.2, hi.1⟩)

theorem inWord_perm {w : Nat} {l l' : List (Nat × Nat)} (h : l.Perm l') : InWord w l ↔ InWord w l' :=
  ⟨fun k r hr => k r (h.mem_iff.mpr hr), fun k r hr => k r (h.mem_iff.mp hr)⟩

theorem ok_ends {w : Nat} : ∀ {l : List (Nat × Nat)} {r0 : Nat × Nat}, rangesOk w (r0 :: l) = true → ∀ r ∈ l, r0.2 ≤ r.1
  | [], _, _, _, h => by cases h
  | r1 :: l, r0, h, r, hr => by
    rw [rangesOk, Bool.and_eq_true, decide_eq_true_eq] at h
    rcases List.mem_cons.mp hr with rfl | hr
    · omega
    · have := ok_ends h.2 r hr
      omega

theorem ok_good {w : Nat} : ∀ {l : List (Nat × Nat)}, 2 ≤ l.length → rangesOk w l = true → InWord w l ∧ Apart l
  | [], h, _ => by simp at h
  | [_], h, _ => by simp at h
  | [r0, r1], _, h => by
    simp only [rangesOk, Bool.and_true, decide_eq_true_eq] at h
    refine ⟨?_, by simp [Apart]; omega⟩
    intro r hr
    simp only [List.mem_cons, List.not_mem_nil, or_false] at hr
    rcases hr with rfl | rfl <;> omega
  | r0 :: r1 :: r2 :: l, _, h => by
    have he := ok_ends h
    rw [rangesOk, Bool.and_eq_true, decide_eq_true_eq] at h
    obtain ⟨g1, g2⟩ := ok_good (l := r1 :: r2 :: l) (by simp) h.2
    refine ⟨?_, List.pairwise_cons.mpr ⟨?_, g2⟩⟩
    · intro r hr
      rcases List.mem_cons.mp hr with rfl | hr
      · omega
      · exact g1 r hr
    · intro r hr i hi
      have := he r hr
      omega

theorem good_ok {w : Nat} : ∀ {l : List (Nat × Nat)}, l.Pairwise (fun a b => a.1 ≤ b.1) → InWord w l → Apart l → rangesOk w l = true
  | [], _, _, _ => rfl
  | [_], _, _, _ => rfl
  | r0 :: r1 :: l, hs, hi, ha => by
    obtain ⟨s1, s2⟩ := List.pairwise_cons.mp hs
    obtain ⟨a1, a2⟩ := List.pairwise_cons.mp ha
    rw [rangesOk, good_ok s2 (fun r hr => hi r (by simp [hr])) a2, Bool.and_true, decide_eq_true_eq]
    have h0 := hi r0 (by simp)
    have h1 := hi r1 (by simp)
    have h2 := s1 r1 (by simp)
    have h3 := a1 r1 (by simp) r1.1
    omega

theorem ranges_ok_iff {w : Nat} {l : List (Nat × Nat)} (h2 : 2 ≤ l.length) : rangesOk w (sortRanges l) = true ↔ InWord w l ∧ Apart l := by
  constructor
  · intro h
    obtain ⟨g1, g2⟩ := ok_good (by rw [sortRanges_length]; exact h2) h
    exact ⟨(inWord_perm (sort_perm l)).mp g1, (apart_perm (sort_perm l)).mp g2⟩
  · rintro ⟨g1, g2⟩
    exact good_ok (sort_sorted l) ((inWord_perm (sort_perm l)).mpr g1) ((apart_perm (sort_perm l)).mpr g2)

theorem ok_of_good {w : Nat} {l : List (Nat × Nat)} (h1 : InWord w l) (h2 : Apart l) : rangesOk w (sortRanges l) = true :=
  good_ok (sort_sorted l) ((inWord_perm (sort_perm l)).mpr h1) ((apart_perm (sort_perm l)).mpr h2)

/-- C92: a layout with two or more ranges is refused with a `ValueError` if and only if a range is empty or leaves the word, or two ranges share a bit. -/
theorem C92_refused (width dflt : Nat) (noField : Err) (parts : List ((Nat × Nat) × BV)) (h2 : 2 ≤ parts.length) :
    createFromLayout width parts dflt noField = .error .valueError ↔ ¬ (InWord width (parts.map (·.1)) ∧ Apart (parts.map (·.1))) := by
  have hne : parts ≠ [] := by rintro rfl; simp at h2
  have hl : 2 ≤ (parts.map (·.1)).length := by simpa using h2
  rw [← ranges_ok_iff hl]
  unfold createFromLayout
  by_cases h : rangesOk width (sortRanges (parts.map (·.1))) = true
  · rw [if_pos h, if_neg (by simp [hne])]
    simp only [h, not_true, iff_false]
    intro hc
    split at hc
    · cases hc
    · split at hc <;> cases hc
  · rw [if_neg h]
    simp [h]

/-! ## where the bits are -/

theorem set_get {s : List (Option BV)} {lo hi : Nat} {b : BV} (h1 : lo < hi) (h2 : hi ≤ s.length) (j : Nat) :
    (setSlot s lo hi b)[j]? = if j < lo then s[j]? else if j = lo then some (some b) else if j < hi then some none else s[j]? := by
  have hlen : (s.take lo).length = lo := by simp; omega
  unfold setSlot
  rw [Nat.max_eq_right (by omega), List.append_assoc]
  by_cases c1 : j < lo
  · rw [List.getElem?_append_left (by omega), if_pos c1, List.getElem?_take, if_pos c1]
  · rw [List.getElem?_append_right (by omega), hlen, if_neg c1]
    by_cases c2 : j = lo
    · subst c2
      simp
    · rw [if_neg c2]
      obtain ⟨k, rfl⟩ : ∃ k, j = lo + 1 + k := ⟨j - lo - 1, by omega⟩
      rw [show lo + 1 + k - lo = k + 1 by omega, List.cons_append, List.getElem?_cons_succ]
      by_cases c3 : lo + 1 + k < hi
      · rw [if_pos c3, List.getElem?_append_left (by simp; omega), List.getElem?_replicate, if_pos (by omega)]
      · rw [if_neg c3, List.getElem?_append_right (by simp; omega), List.length_replicate, List.getElem?_drop]
        congr 1
        omega

theorem set_length {s : List (Option BV)} {lo hi : Nat} {b : BV} (h1 : lo < hi) (h2 : hi ≤ s.length) : (setSlot s lo hi b).length = s.length := by
  unfold setSlot
  simp
  omega

/-- What the slots hold when these parts have been put in. -/
def Filled (width : Nat) (dflt : BV) (parts : List ((Nat × Nat) × BV)) (s : List (Option BV)) : Prop :=
  s.length = width ∧ ∀ j < width, (∃ p ∈ parts, p.1.1 = j ∧ s[j]? = some (some p.2)) ∨ (∃ p ∈ parts, p.1.1 < j ∧ j < p.1.2 ∧ s[j]? = some none) ∨
    (Uncovered (parts.map (·.1)) j ∧ s[j]? = some (some dflt))

theorem fill (width : Nat) (dflt : BV) : ∀ (parts done : List ((Nat × Nat) × BV)) (s : List (Option BV)), Filled width dflt done s →
    InWord width ((done ++ parts).map (·.1)) → Apart ((done ++ parts).map (·.1)) →
    Filled width dflt (done ++ parts) (parts.foldl (fun s p => setSlot s p.1.1 p.1.2 p.2) s)
  | [], done, s, h, _, _ => by simpa using h
  | p :: parts, done, s, h, hi, ha => by
    have hp := hi p.1 (by simp)
    have hset := fun j => set_get (b := p.2) hp.1 (by rw [h.1]; exact hp.2) j
    have hd : ∀ q ∈ done, ∀ i, ¬ ((q.1.1 ≤ i ∧ i < q.1.2) ∧ p.1.1 ≤ i ∧ i < p.1.2) := by
      intro q hq
      rw [List.map_append, Apart, List.pairwise_append] at ha
      exact ha.2.2 q.1 (List.mem_map_of_mem hq) p.1 (by simp)
    have hdi : ∀ q ∈ done, q.1.1 < q.1.2 := fun q hq => (hi q.1 (by simp only [List.map_append, List.mem_append]; exact .inl (List.mem_map_of_mem hq))).1
    have hF : Filled width dflt (done ++ [p]) (setSlot s p.1.1 p.1.2 p.2) := by
      refine ⟨(set_length hp.1 (by rw [h.1]; exact hp.2)).trans h.1, ?_⟩
      intro j hj
      by_cases c1 : p.1.1 = j
      · exact .inl ⟨p, by simp, c1, by rw [hset, if_neg (by omega), if_pos c1.symm]⟩
      by_cases c2 : p.1.1 < j ∧ j < p.1.2
      · exact .inr (.inl ⟨p, by simp, c2.1, c2.2, by rw [hset, if_neg (by omega), if_neg (Ne.symm c1), if_pos c2.2]⟩)
      have he : (setSlot s p.1.1 p.1.2 p.2)[j]? = s[j]? := by
        rw [hset]
        by_cases c3 : j < p.1.1
        · rw [if_pos c3]
        · rw [if_neg c3, if_neg (Ne.symm c1), if_neg (by omega)]
      rw [he]
      rcases h.2 j hj with ⟨q, hq, e1, e2⟩ | ⟨q, hq, e1, e2, e3⟩ | ⟨e1, e2⟩
      · exact .inl ⟨q, by simp [hq], e1, e2⟩
      · exact .inr (.inl ⟨q, by simp [hq], e1, e2, e3⟩)
      · refine .inr (.inr ⟨?_, e2⟩)
        intro r hr
        simp only [List.map_append, List.map_cons, List.map_nil, List.mem_append, List.mem_singleton] at hr
        rcases hr with hr | rfl
        · exact e1 r hr
        · omega
    have := fill width dflt parts (done ++ [p]) _ hF (by simpa using hi) (by simpa using ha)
    simpa using this

theorem pair_forall {α : Type} {R : α → α → Prop} (hsym : ∀ x y, R x y → R y x) : ∀ {l : List α}, l.Pairwise R → ∀ p ∈ l, ∀ q ∈ l, p ≠ q → R p q
  | [], _, _, hp => by cases hp
  | x :: l, h, p, hp => by
    obtain ⟨h1, h2⟩ := List.pairwise_cons.mp h
    intro q hq hne
    rcases List.mem_cons.mp hp with rfl | hp' <;> rcases List.mem_cons.mp hq with rfl | hq'
    · exact absurd rfl hne
    · exact h1 q hq'
    · exact hsym _ _ (h1 p hp')
    · exact pair_forall hsym h2 p hp' q hq' hne

/-- The vectors from slot `j` on. -/
def from' (s : List (Option BV)) (j : Nat) : List BV := (s.drop j).filterMap id

theorem from_some {s : List (Option BV)} {j : Nat} {b : BV} (h : s[j]? = some (some b)) : from' s j = b :: from' s (j + 1) := by
  obtain ⟨hj, e⟩ := List.getElem?_eq_some_iff.mp h
  unfold from'
  rw [List.drop_eq_getElem_cons hj, e]
  rfl

theorem from_none {s : List (Option BV)} : ∀ (n j : Nat), (∀ i, j ≤ i → i < j + n → s[i]? = some none) → from' s j = from' s (j + n)
  | 0, j, _ => rfl
  | n + 1, j, h => by
    obtain ⟨hj, e⟩ := List.getElem?_eq_some_iff.mp (h j (Nat.le_refl _) (by omega))
    have : from' s j = from' s (j + 1) := by
      unfold from'
      rw [List.drop_eq_getElem_cons hj, e]
      rfl
    rw [this, from_none n (j + 1) (fun i h1 h2 => h i (by omega) (by omega)), show j + 1 + n = j + (n + 1) by omega]

theorem bit_of {b : BV} {v i : Nat} : (b.val + 2 ^ b.size * v).testBit i = if i < b.size then b.val.testBit i else v.testBit (i - b.size) := by
  rw [Nat.add_comm]
  exact Nat.testBit_two_pow_mul_add v b.isLt i

theorem bits_from {width : Nat} {dflt : BV} (hd : dflt.size = 1) {parts : List ((Nat × Nat) × BV)} {s : List (Option BV)} (hF : Filled width dflt parts s)
    (hi : InWord width (parts.map (·.1))) (ha : Apart (parts.map (·.1))) (hs : ∀ p ∈ parts, p.2.size = p.1.2 - p.1.1) :
    ∀ (n j : Nat), n = width - j → j ≤ width → (∀ p ∈ parts, ¬ (p.1.1 < j ∧ j < p.1.2)) →
      sizes (from' s j) = n ∧ (∀ p ∈ parts, j ≤ p.1.1 → ∀ i < p.1.2 - p.1.1, (concatVal (from' s j)).testBit (p.1.1 - j + i) = p.2.val.testBit i) ∧
        ∀ i, j ≤ i → i < width → Uncovered (parts.map (·.1)) i → (concatVal (from' s j)).testBit (i - j) = dflt.val.testBit 0 := by
  have same : ∀ p ∈ parts, ∀ q ∈ parts, ∀ i, (p.1.1 ≤ i ∧ i < p.1.2) → (q.1.1 ≤ i ∧ i < q.1.2) → p = q := by
    intro p hp q hq i h1 h2
    by_contra hne
    have ha' : parts.Pairwise (fun r t => ∀ i, ¬ ((r.1.1 ≤ i ∧ i < r.1.2) ∧ t.1.1 ≤ i ∧ i < t.1.2)) := List.pairwise_map.mp ha
    have hsym : ∀ {x y : (Nat × Nat) × BV}, (∀ i, ¬ ((x.1.1 ≤ i ∧ i < x.1.2) ∧ y.1.1 ≤ i ∧ i < y.1.2)) → ∀ i, ¬ ((y.1.1 ≤ i ∧ i < y.1.2) ∧ x.1.1 ≤ i ∧ i < x.1.2) :=
      fun h i hh => h i ⟨hh.2, hh.1⟩
    exact pair_forall (fun _ _ => hsym) ha' p hp q hq hne i ⟨h1, h2⟩
  have hin : ∀ p ∈ parts, p.1.1 < p.1.2 ∧ p.1.2 ≤ width := fun p hp => hi p.1 (List.mem_map_of_mem hp)
  intro n
  induction n using Nat.strongRecOn with
  | _ n ih =>
    intro j hn hj hb
    by_cases hend : j = width
    · subst hend
      have he : from' s j = [] := by
        unfold from'
        rw [List.drop_of_length_le (Nat.le_of_eq hF.1)]
        rfl
      rw [he]
      refine ⟨by show 0 = n; omega, ?_, ?_⟩
      · intro p hp hjp
        have := hin p hp
        omega
      · intro i h1 h2
        omega
    have hlt : j < width := by omega
    rcases hF.2 j hlt with ⟨p, hp, e1, e2⟩ | ⟨p, hp, e1, e2, _⟩ | ⟨e1, e2⟩
    · -- a part begins
      obtain ⟨hp1, hp2⟩ := hin p hp
      have hps := hs p hp
      have hnone : ∀ i, j + 1 ≤ i → i < j + 1 + (p.1.2 - j - 1) → s[i]? = some none := by
        intro i h1 h2
        rcases hF.2 i (by omega) with ⟨q, hq, g1, _⟩ | ⟨q, hq, _, _, g3⟩ | ⟨g1, _⟩
        · obtain ⟨hq1, _⟩ := hin q hq
          have := same p hp q hq i (by omega) (by omega)
          subst this
          omega
        · exact g3
        · exact absurd ⟨by omega, by omega⟩ (g1 p.1 (List.mem_map_of_mem hp))
      have hfr : from' s j = p.2 :: from' s p.1.2 := by
        rw [from_some e2, from_none _ _ hnone]
        congr 2
        omega
      have hb' : ∀ q ∈ parts, ¬ (q.1.1 < p.1.2 ∧ p.1.2 < q.1.2) := by
        intro q hq hc
        have := same p hp q hq (p.1.2 - 1) (by omega) (by omega)
        subst this
        omega
      obtain ⟨r1, r2, r3⟩ := ih (width - p.1.2) (by omega) p.1.2 rfl hp2 hb'
      rw [hfr]
      refine ⟨by simp only [sizes, r1]; omega, ?_, ?_⟩
      · intro q hq hjq i hi'
        obtain ⟨hq1, _⟩ := hin q hq
        simp only [concatVal, bit_of]
        by_cases hqp : q.1.1 = j
        · have := same p hp q hq j (by omega) (by omega)
          subst this
          rw [if_pos (by omega)]
          congr 1
          omega
        · have hge : p.1.2 ≤ q.1.1 := by
            by_contra hc
            have := same p hp q hq q.1.1 (by omega) (by omega)
            subst this
            omega
          rw [if_neg (by omega), ← r2 q hq hge i hi']
          congr 1
          omega
      · intro i h1 h2 hu
        have hge : p.1.2 ≤ i := by
          have := hu p.1 (List.mem_map_of_mem hp)
          omega
        simp only [concatVal, bit_of]
        rw [if_neg (by omega), ← r3 i hge h2 hu]
        congr 1
        omega
    · exact absurd ⟨e1, e2⟩ (hb p hp)
    · -- an unused bit
      have hb' : ∀ q ∈ parts, ¬ (q.1.1 < j + 1 ∧ j + 1 < q.1.2) := by
        intro q hq hc
        exact e1 q.1 (List.mem_map_of_mem hq) ⟨by omega, by omega⟩
      obtain ⟨r1, r2, r3⟩ := ih (width - (j + 1)) (by omega) (j + 1) rfl (by omega) hb'
      rw [from_some e2]
      refine ⟨by simp only [sizes, r1, hd]; omega, ?_, ?_⟩
      · intro q hq hjq i hi'
        obtain ⟨hq1, _⟩ := hin q hq
        have hne : q.1.1 ≠ j := by
          intro he
          exact e1 q.1 (List.mem_map_of_mem hq) ⟨by omega, by omega⟩
        simp only [concatVal, bit_of]
        rw [hd, if_neg (by omega), ← r2 q hq (by omega) i hi']
        congr 1
        omega
      · intro i h1 h2 hu
        simp only [concatVal, bit_of]
        rw [hd]
        by_cases hij : i = j
        · subst hij
          simp
        · rw [if_neg (by omega), ← r3 i (by omega) h2 hu]
          congr 1

/-- C92: with any other layout, in any order, and fields as wide as their ranges, the result is a word of the given width that has the bits of every field at its range and the default at
the bits no field has. -/
theorem C92_bits (width dflt : Nat) (noField : Err) (parts : List ((Nat × Nat) × BV)) (hne : parts ≠ []) (hi : InWord width (parts.map (·.1))) (ha : Apart (parts.map (·.1)))
    (hs : ∀ p ∈ parts, p.2.size = p.1.2 - p.1.1) :
    ∃ r, createFromLayout width parts dflt noField = .ok r ∧ r.size = width ∧
      (∀ p ∈ parts, ∀ i < p.1.2 - p.1.1, r.val.testBit (p.1.1 + i) = p.2.val.testBit i) ∧
      ∀ i < width, Uncovered (parts.map (·.1)) i → r.val.testBit i = dflt.testBit 0 := by
  have h0 : Filled width (BV.ofNat 1 dflt) [] (List.replicate width (some (BV.ofNat 1 dflt))) := by
    refine ⟨by simp, fun j hj => .inr (.inr ⟨by simp [Uncovered], by simp [hj]⟩)⟩
  have hF := fill width (BV.ofNat 1 dflt) parts [] _ h0 (by simpa using hi) (by simpa using ha)
  rw [List.nil_append] at hF
  obtain ⟨h1, h2, h3⟩ := bits_from rfl hF hi ha hs width 0 (by simp) (Nat.zero_le _) (by intro p _; omega)
  generalize hsl : parts.foldl (fun s p => setSlot s p.1.1 p.1.2 p.2) (List.replicate width (some (BV.ofNat 1 dflt))) = sl at hF h1 h2 h3
  have hpos : 0 < width := by
    obtain ⟨p, hp⟩ := List.exists_mem_of_ne_nil _ hne
    have := hi p.1 (List.mem_map_of_mem hp)
    omega
  have hfm : from' sl 0 = sl.filterMap id := rfl
  rw [hfm] at h1 h2 h3
  have hnil : sl.filterMap id ≠ [] := by
    intro e
    rw [e] at h1
    simp [sizes] at h1
    omega
  have hv := concatVal_lt (sl.filterMap id)
  rw [h1] at hv
  refine ⟨BV.ofNat width (concatVal (sl.filterMap id)), ?_, rfl, ?_, ?_⟩
  · unfold createFromLayout
    rw [if_pos (ok_of_good hi ha), if_neg (by simp [hne])]
    simp only [hsl, concatAll_eq hnil, h1, BV.ofNat_size, if_true]
    congr 1
    exact BV.ext rfl (by simp)
  · intro p hp i hi'
    rw [BV.ofNat_val, Nat.mod_eq_of_lt hv, ← h2 p hp (Nat.zero_le _) i hi', Nat.sub_zero]
  · intro i hi' hu
    rw [BV.ofNat_val, Nat.mod_eq_of_lt hv]
    have := h3 i (Nat.zero_le _) hi' hu
    rw [Nat.sub_zero] at this
    rw [this]
    simp [BV.ofNat_val, Nat.testBit_zero]

/-- A layout with a gap, the upper range first; and one where two ranges share a bit. -/
example : createFromLayout 6 [((4, 6), BV.ofNat 2 1), ((0, 3), BV.ofNat 3 5)] 1 .typeError = .ok (BV.ofNat 6 0b011101) ∧
    createFromLayout 6 [((2, 5), BV.ofNat 3 1), ((0, 3), BV.ofNat 3 5)] 0 .typeError = .error .valueError := by decide +kernel

/-- C92: the check looks at neighbouring ranges only, so a single range is not checked: one that leaves the word raises `AssertionError` instead. -/
theorem C92_single : createFromLayout 2 [((1, 3), BV.ofNat 2 0)] 0 .typeError = .error .assertionError := by decide +kernel

end Peak.FL
