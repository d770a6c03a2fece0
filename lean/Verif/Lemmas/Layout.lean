import Verif.Model.Layout
import Verif.Lemmas.AsmGood

namespace Peak
open Peak.Spec

/-- The number spelled by vectors one after the other, first lowest. -/
def concatVal : List BV → Nat
  | [] => 0
  | b :: bs => b.val + 2 ^ b.size * concatVal bs

def sizes : List BV → Nat
  | [] => 0
  | b :: bs => b.size + sizes bs

theorem concatVal_lt : ∀ bs : List BV, concatVal bs < 2 ^ sizes bs
  | [] => by simp [concatVal, sizes]
  | b :: bs => pow_add_lt b.isLt (concatVal_lt bs)

theorem foldl_concat : ∀ (bs : List BV) (b : BV),
    bs.foldl BV.concat b = BV.ofNat (b.size + sizes bs) (b.val + 2 ^ b.size * concatVal bs)
  | [], b => by simp [sizes, concatVal]
  | b' :: bs, b => by
    rw [List.foldl_cons, foldl_concat bs]
    have h1 : (b.concat b').size = b.size + b'.size := rfl
    have h2 : (b.concat b').val = b.val + 2 ^ b.size * b'.val := by
      simp only [BV.concat, BV.ofNat_val]
      rw [Nat.mul_comm b'.val]
      exact Nat.mod_eq_of_lt (pow_add_lt b.isLt b'.isLt)
    rw [h1, h2]
    simp only [sizes, concatVal, Nat.add_assoc, Nat.pow_add, Nat.mul_add, Nat.mul_assoc]

theorem concatAll_eq {bs : List BV} (h : bs ≠ []) : concatAll bs = some (BV.ofNat (sizes bs) (concatVal bs)) := by
  cases bs with
  | nil => exact absurd rfl h
  | cons b bs => simp only [concatAll, foldl_concat, sizes, concatVal]

theorem concatVal_append : ∀ a b : List BV, concatVal (a ++ b) = concatVal a + 2 ^ sizes a * concatVal b
  | [], b => by simp [concatVal, sizes]
  | x :: a, b => by
    simp only [List.cons_append, concatVal, sizes, concatVal_append a b, Nat.mul_add, Nat.pow_add, Nat.mul_assoc,
      Nat.add_assoc]

theorem sizes_append : ∀ a b : List BV, sizes (a ++ b) = sizes a + sizes b
  | [], b => by simp [sizes]
  | x :: a, b => by simp [sizes, sizes_append a b, Nat.add_assoc]

theorem insertRange_tiles {x : Nat × Nat} {l : List (Nat × Nat)} {hi : Nat} (h1 : x.1 ≤ x.2) (h : Tiles x.2 hi l) :
    insertRange x l = x :: l := by
  cases l with
  | nil => rfl
  | cons y l =>
    obtain ⟨a, b⟩ := y
    obtain ⟨h2, h3, _⟩ := h
    have hle : rangeLe x (a, b) = true := by
      simp only [rangeLe, Bool.or_eq_true, decide_eq_true_eq, Bool.and_eq_true, beq_iff_eq]
      omega
    simp only [insertRange, hle, if_true]

theorem sortRanges_tiles : ∀ (l : List (Nat × Nat)) (lo hi : Nat), Tiles lo hi l → sortRanges l = l
  | [], _, _, _ => rfl
  | (a, b) :: l, lo, hi, h => by
    obtain ⟨h1, h2, h3⟩ := h
    rw [sortRanges, sortRanges_tiles l b hi h3, insertRange_tiles h2 h3]

theorem tiles_le : ∀ (l : List (Nat × Nat)) (lo hi : Nat), Tiles lo hi l → lo ≤ hi
  | [], _, _, h => by simp only [Tiles] at h; omega
  | (a, b) :: l, lo, hi, h => by
    obtain ⟨h1, h2, h3⟩ := h
    have := tiles_le l b hi h3; omega

theorem rangesOk_tiles : ∀ (l : List (Nat × Nat)) (lo hi : Nat), Tiles lo hi l → (∀ r ∈ l, r.1 < r.2) → rangesOk hi l = true
  | [], _, _, _, _ => rfl
  | [_], _, _, _, _ => rfl
  | (a, b) :: (c, d) :: l, lo, hi, h, hp => by
    obtain ⟨h1, h2, h3⟩ := h
    have ih := rangesOk_tiles ((c, d) :: l) b hi h3 (fun r hr => hp r (by simp [hr]))
    obtain ⟨h4, h5, h6⟩ := h3
    have := tiles_le l d hi h6
    have p1 := hp (a, b) (by simp)
    have p2 := hp (c, d) (by simp)
    simp only at p1 p2
    simp only [rangesOk, ih, Bool.and_true, decide_eq_true_eq]
    omega

theorem slots_tiles (width d : Nat) : ∀ (parts : List ((Nat × Nat) × BV)) (base : Nat) (done : List (Option BV)),
    Tiles base width (parts.map (·.1)) → (∀ p ∈ parts, p.1.1 < p.1.2) → done.length = base →
    (parts.foldl (fun s p => setSlot s p.1.1 p.1.2 p.2)
      (done ++ List.replicate (width - base) (some (BV.ofNat 1 d)))).filterMap id = done.filterMap id ++ parts.map (·.2)
  | [], base, done, h, _, hl => by
    simp only [List.map_nil, Tiles] at h
    subst h
    simp
  | ((a, b), bv) :: parts, base, done, h, hp, hl => by
    obtain ⟨h1, h2, h3⟩ := h
    have hlt := hp ((a, b), bv) (by simp)
    simp only at hlt
    have hle := tiles_le _ _ _ h3
    have hs : setSlot (done ++ List.replicate (width - base) (some (BV.ofNat 1 d))) a b bv =
        (done ++ (some bv :: List.replicate (b - (a + 1)) none)) ++ List.replicate (width - b) (some (BV.ofNat 1 d)) := by
      unfold setSlot
      subst h1
      rw [List.take_left' hl, Nat.max_eq_right (by omega), List.drop_append, List.drop_of_length_le (by omega), hl,
        List.drop_replicate, List.nil_append]
      congr 2; omega
    simp only [List.foldl_cons, hs]
    rw [slots_tiles width d parts b _ h3 (fun p hp' => hp p (by simp [hp'])) (by simp [hl]; omega)]
    simp

theorem createFromLayout_tiles {width d : Nat} {e : Err} {parts : List ((Nat × Nat) × BV)}
    (ht : Tiles 0 width (parts.map (·.1))) (hne : parts ≠ [])
    (hp : (∀ p ∈ parts, p.1.1 < p.1.2) ∨ parts.length = 1) (hs : ∀ p ∈ parts, p.2.size = p.1.2 - p.1.1) :
    createFromLayout width parts d e = .ok (BV.ofNat width (concatVal (parts.map (·.2)))) := by
  have hsz : ∀ (parts : List ((Nat × Nat) × BV)) (lo : Nat), Tiles lo width (parts.map (·.1)) →
      (∀ p ∈ parts, p.2.size = p.1.2 - p.1.1) → sizes (parts.map (·.2)) = width - lo := by
    intro parts
    induction parts with
    | nil => intro lo h _; simp only [List.map_nil, Tiles] at h; simp [sizes]; omega
    | cons p parts ih =>
      obtain ⟨⟨a, b⟩, bv⟩ := p
      intro lo h hs
      obtain ⟨h1, h2, h3⟩ := h
      have := hs ((a, b), bv) (by simp)
      have hle := tiles_le _ _ _ h3
      simp only [List.map_cons, sizes, ih b h3 (fun p hp => hs p (by simp [hp]))]
      simp only at this
      omega
  have hfm : (parts.foldl (fun s p => setSlot s p.1.1 p.1.2 p.2)
      (List.replicate width (some (BV.ofNat 1 d)))).filterMap id = parts.map (·.2) := by
    rcases hp with hp | hp
    · have := slots_tiles width d parts 0 [] ht hp rfl
      simpa using this
    · match parts, hp with
      | [((a, b), bv)], _ =>
        simp only [List.map_cons, List.map_nil, Tiles] at ht
        obtain ⟨rfl, _, rfl⟩ := ht
        simp [setSlot]
  have hok : rangesOk width (sortRanges (parts.map (·.1))) = true := by
    rw [sortRanges_tiles _ _ _ ht]
    rcases hp with hp | hp
    · apply rangesOk_tiles _ _ _ ht
      intro r hr
      obtain ⟨p, hp', rfl⟩ := List.mem_map.1 hr
      exact hp p hp'
    · match parts, hp with
      | [p], _ => rfl
  unfold createFromLayout
  rw [if_pos hok, if_neg (by simp [hne])]
  simp only [hfm]
  rw [concatAll_eq (by simpa using hne)]
  have := hsz parts 0 ht hs
  simp only [Nat.sub_zero] at this
  simp only [this, BV.ofNat_size, if_true]
  congr 1
  apply BV.ext
  · rfl
  · simp

/-- Whatever the layout, ranges of width zero are refused when there are at least two ranges. -/
theorem rangesOk_strict {w : Nat} : ∀ {l : List (Nat × Nat)}, 2 ≤ l.length → rangesOk w l = true → ∀ r ∈ l, r.1 < r.2
  | [], h, _, _, _ => by simp at h
  | [_], h, _, _, _ => by simp at h
  | [r0, r1], _, h, r, hr => by
    simp only [rangesOk, Bool.and_true, decide_eq_true_eq] at h
    simp only [List.mem_cons, List.not_mem_nil, or_false] at hr
    rcases hr with rfl | rfl <;> omega
  | r0 :: r1 :: r2 :: l, _, h, r, hr => by
    rw [rangesOk, Bool.and_eq_true, decide_eq_true_eq] at h
    rcases List.mem_cons.1 hr with rfl | hr
    · omega
    · exact rangesOk_strict (l := r1 :: r2 :: l) (by simp) h.2 r hr

theorem insertRange_mem {x y : Nat × Nat} {l : List (Nat × Nat)} : y ∈ insertRange x l ↔ y = x ∨ y ∈ l := by
  induction l with
  | nil => simp [insertRange]
  | cons z l ih =>
    simp only [insertRange]
    split
    · simp
    · simp only [List.mem_cons, ih]
      constructor <;> (rintro (h | h | h) <;> simp [h])

theorem insertRange_length (x : Nat × Nat) (l : List (Nat × Nat)) : (insertRange x l).length = l.length + 1 := by
  induction l with
  | nil => rfl
  | cons z l ih => simp only [insertRange]; split <;> simp [ih]

theorem sortRanges_mem {y : Nat × Nat} {l : List (Nat × Nat)} : y ∈ sortRanges l ↔ y ∈ l := by
  induction l with
  | nil => simp [sortRanges]
  | cons z l ih => simp [sortRanges, insertRange_mem, ih]

theorem sortRanges_length (l : List (Nat × Nat)) : (sortRanges l).length = l.length := by
  induction l with
  | nil => rfl
  | cons z l ih => simp [sortRanges, insertRange_length, ih]

theorem createFromLayout_zero {width d : Nat} {e : Err} {parts : List ((Nat × Nat) × BV)} (h2 : 2 ≤ parts.length)
    (hz : ∃ p ∈ parts, p.1.2 ≤ p.1.1) : createFromLayout width parts d e = .error .valueError := by
  unfold createFromLayout
  rw [if_neg]
  intro h
  obtain ⟨p, hp, hp'⟩ := hz
  have := rangesOk_strict (by rw [sortRanges_length]; simpa using h2) h p.1
    (sortRanges_mem.2 (List.mem_map_of_mem hp))
  omega

theorem concatVal_fill (d : Nat) : ∀ n, concatVal (List.replicate n (BV.ofNat 1 d)) = (d % 2) * (2 ^ n - 1) ∧
    sizes (List.replicate n (BV.ofNat 1 d)) = n
  | 0 => by simp [concatVal, sizes]
  | n + 1 => by
    obtain ⟨h1, h2⟩ := concatVal_fill d n
    simp only [List.replicate_succ, concatVal, sizes, h1, h2, BV.ofNat_val, BV.ofNat_size, Nat.pow_one]
    refine ⟨?_, by omega⟩
    have := Nat.two_pow_pos n
    rcases Nat.mod_two_eq_zero_or_one d with h | h <;> rw [h] <;> rw [Nat.pow_succ] <;> omega

/-- A union: tag, payload, and the remaining bits filled with the default. -/
theorem createFromLayout_union {tw w width d : Nat} {e : Err} {tag value : BV} (htw : 0 < tw) (hw : 0 < w)
    (hle : tw + w ≤ width) (h1 : tag.size = tw) (h2 : value.size = w) :
    createFromLayout width [((tw, tw + w), value), ((0, tw), tag)] d e =
      .ok (BV.ofNat width (tag.val + 2 ^ tw * (value.val + 2 ^ w * ((d % 2) * (2 ^ (width - (tw + w)) - 1))))) := by
  have hsort : sortRanges [(tw, tw + w), (0, tw)] = [(0, tw), (tw, tw + w)] := by
    have hf : rangeLe (tw, tw + w) (0, tw) = false := by
      simp only [rangeLe, Bool.or_eq_false_iff, decide_eq_false_iff_not, Bool.and_eq_false_iff, beq_eq_false_iff_ne]
      omega
    simp [sortRanges, insertRange, hf]
  have hfm : ([((tw, tw + w), value), ((0, tw), tag)].foldl (fun s p => setSlot s p.1.1 p.1.2 p.2)
      (List.replicate width (some (BV.ofNat 1 d)))).filterMap id =
        tag :: value :: List.replicate (width - (tw + w)) (BV.ofNat 1 d) := by
    simp only [List.foldl_cons, List.foldl_nil]
    have e1 : setSlot (List.replicate width (some (BV.ofNat 1 d))) tw (tw + w) value =
        List.replicate tw (some (BV.ofNat 1 d)) ++ (some value :: List.replicate (w - 1) none ++
          List.replicate (width - (tw + w)) (some (BV.ofNat 1 d))) := by
      unfold setSlot
      rw [List.take_replicate, List.drop_replicate, Nat.min_eq_left (by omega), Nat.max_eq_right (by omega),
        show tw + w - (tw + 1) = w - 1 by omega, List.append_assoc]
    rw [e1]
    unfold setSlot
    rw [Nat.max_eq_right (by omega), List.drop_left' (by simp)]
    simp [List.filterMap_append]
  unfold createFromLayout
  simp only [List.map_cons, List.map_nil]
  rw [hsort, if_pos (by simp only [rangesOk, Bool.and_true, decide_eq_true_eq]; omega), if_neg (by simp)]
  simp only [hfm]
  obtain ⟨g1, g2⟩ := concatVal_fill d (width - (tw + w))
  rw [concatAll_eq (by simp)]
  simp only [sizes, g2, h1, h2, BV.ofNat_size, concatVal, g1]
  rw [if_pos (by omega)]
  congr 1
  apply BV.ext
  · rfl
  simp only [BV.ofNat_val]
  rw [show tw + (w + (width - (tw + w))) = width by omega, Nat.mod_mod]

end Peak
