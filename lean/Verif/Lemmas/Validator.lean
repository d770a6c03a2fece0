import Verif.Model.Validator
import Verif.Lemmas.Basic

namespace Peak

/-! ### sorting -/

theorem mem_insertNat {x y : Nat} {l : List Nat} : y ∈ insertNat x l ↔ y = x ∨ y ∈ l := by
  induction l with
  | nil => simp [insertNat]
  | cons z l ih =>
    simp only [insertNat]
    split
    · simp
    · grind

theorem mem_sortNat {x : Nat} {l : List Nat} : x ∈ sortNat l ↔ x ∈ l := by
  induction l with
  | nil => simp [sortNat]
  | cons z l ih => simp [sortNat, mem_insertNat, ih]

theorem insertNat_length (x : Nat) (l : List Nat) : (insertNat x l).length = l.length + 1 := by
  induction l with
  | nil => rfl
  | cons z l ih => simp only [insertNat]; split <;> simp [ih]

theorem sortNat_length (l : List Nat) : (sortNat l).length = l.length := by
  induction l with
  | nil => rfl
  | cons z l ih => simp [sortNat, insertNat_length, ih]

theorem sortNat_range' (a n : Nat) : sortNat (List.range' a n) = List.range' a n := by
  induction n generalizing a with
  | zero => rfl
  | succ n ih =>
    rw [List.range'_succ]
    simp only [sortNat, ih]
    cases n with
    | zero => rfl
    | succ n => rw [List.range'_succ]; simp [insertNat]

theorem mem_pyRange {a b x : Nat} : x ∈ pyRange a b ↔ a ≤ x ∧ x < b := by
  simp only [pyRange, List.mem_range'_1]; omega

/-! ### single validators -/

theorem foldl_or_any {α} (f : α → Bool) (l : List α) (acc : Bool) :
    l.foldl (fun acc c => acc || f c) acc = (acc || l.any f) := by
  induction l generalizing acc with
  | nil => simp
  | cons x l ih => simp [ih, Bool.or_assoc]

theorem foldl_and_all {α} (f : α → Bool) (l : List α) (acc : Bool) :
    l.foldl (fun acc c => acc && f c) acc = (acc && l.all f) := by
  induction l generalizing acc with
  | nil => simp
  | cons x l ih => simp [ih, Bool.and_assoc]

theorem vNaive_iff (ops : List Nat) (b : BV) :
    vNaive ops b = true ↔ ∃ c ∈ ops, b.val = c % 2 ^ b.size := by
  simp [vNaive, foldl_or_any, BV.eqInt]

theorem vRanges_eq (vs : List Validator) : vRanges vs = vAlways := by
  funext b; simp [vRanges, vAlways, foldl_or_any (fun f : Validator => f b)]

theorem vUpper_iff (m : Nat) (b : BV) : vUpper m b = true ↔ b.val ≤ m % 2 ^ b.size := by
  simp [vUpper, BV.leInt]

theorem vLower_iff (m : Nat) (b : BV) : vLower m b = true ↔ m % 2 ^ b.size ≤ b.val := by
  simp [vLower, BV.geInt]

theorem vBetween_iff (lo hi : Nat) (b : BV) :
    vBetween lo hi b = true ↔ lo % 2 ^ b.size ≤ b.val ∧ b.val ≤ hi % 2 ^ b.size := by
  simp [vBetween, BV.geInt, BV.leInt]

theorem pred_val_of_pos {b : BV} (h : 0 < b.val) : b.pred.val = b.val - 1 := by
  have := b.isLt
  simp only [BV.pred, BV.ofNat_val]
  rw [show b.val + 2 ^ b.size - 1 = (b.val - 1) + 2 ^ b.size by omega, Nat.add_mod_right]
  exact Nat.mod_eq_of_lt (by omega)

theorem and_pred_val (b : BV) : (b.and b.pred).val = b.val &&& (b.val - 1) := by
  have hlt := b.isLt
  simp only [BV.and, BV.ofNat_val]
  rcases Nat.eq_zero_or_pos b.val with h | h
  · simp [h]
  · rw [pred_val_of_pos h]
    exact Nat.mod_eq_of_lt (Nat.lt_of_le_of_lt Nat.and_le_left hlt)

theorem vOneHot_iff (inv : List Nat) (b : BV) :
    vOneHot inv b = true ↔ b.val &&& (b.val - 1) = 0 ∧ ∀ c ∈ inv, b.val ≠ c % 2 ^ b.size := by
  simp [vOneHot, foldl_and_all, BV.eqInt, and_pred_val]

/-- a number with `x & (x-1) == 0` is zero or a power of two -/
theorem eq_two_pow_of_and_pred {x : Nat} (h : x &&& (x - 1) = 0) (hx : x ≠ 0) :
    ∃ i, x = 2 ^ i := by
  refine ⟨Nat.log2 x, ?_⟩
  have h1 := Nat.log2_self_le hx
  have h2 : x < 2 ^ (Nat.log2 x + 1) := Nat.lt_log2_self
  rcases Nat.eq_or_lt_of_le h1 with h3 | h3
  · exact h3.symm
  · exfalso
    have hb1 : x.testBit (Nat.log2 x) = true := by
      rw [Nat.testBit_eq_decide_div_mod_eq, decide_eq_true_eq]
      have : x / 2 ^ Nat.log2 x = 1 := by
        rw [Nat.div_eq_iff (Nat.two_pow_pos _)]
        rw [Nat.pow_succ] at h2; omega
      rw [this]
    have hb2 : (x - 1).testBit (Nat.log2 x) = true := by
      rw [Nat.testBit_eq_decide_div_mod_eq, decide_eq_true_eq]
      have : (x - 1) / 2 ^ Nat.log2 x = 1 := by
        rw [Nat.div_eq_iff (Nat.two_pow_pos _)]
        rw [Nat.pow_succ] at h2; omega
      rw [this]
    have := congrArg (fun n => n.testBit (Nat.log2 x)) h
    simp [Nat.testBit_and, hb1, hb2] at this

theorem mem_invalidOneHot {ops : List Nat} {w c : Nat} :
    c ∈ invalidOneHot ops w ↔ (c = 0 ∧ 0 ∉ ops) ∨ (∃ i < w, c = 2 ^ i) ∧ c ∉ ops := by
  simp only [invalidOneHot, List.mem_append, List.mem_filter, List.mem_map, List.mem_range]
  constructor
  · rintro (h | ⟨⟨i, hi, rfl⟩, h⟩)
    · split at h <;> simp_all
    · exact Or.inr ⟨⟨i, hi, rfl⟩, by simpa using h⟩
  · rintro (⟨rfl, h⟩ | ⟨⟨i, hi, rfl⟩, h⟩)
    · left; simp [h]
    · right; exact ⟨⟨i, hi, rfl⟩, by simpa using h⟩

/-! ### what is generated, as a pure function of the sorted opcodes and the width -/

def lastOp (ops : List Nat) : Nat := ops.getLastD 0

def isRangeB (ops : List Nat) : Bool := ops == pyRange (ops.headD 0) (lastOp ops + 1)

def isOneHotB (ops : List Nat) : Bool := ops.all (fun x => x &&& (x - 1) == 0)

/-- number of maximal contiguous ranges -/
def numRanges (ops : List Nat) : Nat := (splitRanges (ops.headD 0) (ops.headD 0) ops.tail).length

/-- the opcode set is handled by the multi-range validator -/
def isMultiB (ops : List Nat) : Bool :=
  !(ops.length < 3) && !isRangeB ops && !isOneHotB ops && (11 * numRanges ops < 10 * ops.length)

/-- The validator generated for sorted opcodes when the cache has no entry for them. -/
def pureV (ops : List Nat) (w : Nat) : Validator :=
  if isRangeB ops && ops.headD 0 == 0 && lastOp ops == 2 ^ w - 1 then vAlways
  else if ops.length < 3 then vNaive ops
  else if isRangeB ops then
    if ops.headD 0 == 0 then vUpper (lastOp ops)
    else if lastOp ops == 2 ^ w - 1 then vLower (ops.headD 0)
    else vBetween (ops.headD 0) (lastOp ops)
  else if isOneHotB ops then
    if (invalidOneHot ops w).length < ops.length then vOneHot (invalidOneHot ops w) else vNaive ops
  else if 11 * numRanges ops < 10 * ops.length then vAlways else vNaive ops

end Peak
