import Verif.Model.RiscVExt
import Verif.Spec.RiscVExt
import Verif.Props.RiscV
/-!
# C46: the bit counting instructions
-/

namespace Peak.RV

theorem takeWhile_len : ∀ (l : List Bool) (n : Nat), (∀ i, i < n → l[i]? = some false) → l[n]? = some true →
    (l.takeWhile (· == false)).length = n
  | [], n, _, h => by simp at h
  | b :: l, 0, _, h => by simp at h; subst h; rfl
  | b :: l, n + 1, h1, h2 => by
    have := h1 0 (Nat.succ_pos n)
    simp at this
    subst this
    rw [List.takeWhile_cons_of_pos rfl, List.length_cons, takeWhile_len l n (fun i hi => by
      have := h1 (i + 1) (Nat.succ_lt_succ hi); simpa using this) (by simpa using h2)]

theorem term (val : Word) (i : Nat) (hi : i < 32) :
    bvlshr (val &&& BitVec.ofNat 32 (1 <<< i)) (BitVec.ofNat 32 i) = BitVec.ofNat 32 (if val.getLsbD i then 1 else 0) := by
  have h1 : (BitVec.ofNat 32 i).toNat = i := by simp; omega
  rw [bvlshr, h1]
  apply BitVec.eq_of_getLsbD_eq
  intro j hj
  rw [BitVec.getLsbD_ushiftRight, BitVec.getLsbD_and, BitVec.getLsbD_ofNat, Nat.one_shiftLeft, Nat.testBit_two_pow]
  cases j with
  | zero => cases h : val.getLsbD i <;> simp [hi]
  | succ j => cases h : val.getLsbD i <;> simp

theorem pop_fold (val : Word) : ∀ (l : List Nat) (c : Nat), (∀ i ∈ l, i < 32) →
    l.foldl (fun cnt i => cnt + bvlshr (val &&& BitVec.ofNat 32 (1 <<< i)) (BitVec.ofNat 32 i)) (BitVec.ofNat 32 c) =
      BitVec.ofNat 32 (c + (l.map val.getLsbD).count true)
  | [], c, _ => rfl
  | i :: l, c, h => by
    rw [List.foldl_cons, term val i (h i (by simp)), ← BitVec.ofNat_add, pop_fold val l _ (fun j hj => h j (by simp [hj]))]
    congr 1
    cases hb : val.getLsbD i <;> simp [hb] <;> omega

theorem ones_le (w : Word) : ones w ≤ 32 := by
  have := List.count_le_length (a := true) (l := bitsOf w)
  simpa [ones, bitsOf] using this

/-- C46: `POPCNT` returns the number of ones of every word. -/
theorem C46_popcnt (w : Word) : ∃ r, bitCounter .POPCNT w = .ok r ∧ r.toNat = ones w := by
  refine ⟨popcnt w, rfl, ?_⟩
  have := pop_fold w (List.range 32) 0 (fun i hi => List.mem_range.mp hi)
  rw [popcnt]
  have h0 : (0 : Word) = BitVec.ofNat 32 0 := rfl
  rw [h0, this, Nat.zero_add, BitVec.toNat_ofNat]
  exact Nat.mod_eq_of_lt (Nat.lt_of_le_of_lt (ones_le w) (by decide))

/-- The loop invariant of `CNTTZ` while the lowest one is among the `p` lowest bits of `val`. -/
structure TzInv (w : Word) (st : CntSt) (p : Nat) : Prop where
  mask : st.mask = BitVec.allOnes 32 >>> (32 - p)
  val : w.toNat = st.val.toNat * 2 ^ st.cnt.toNat
  low : st.val.toNat % 2 ^ p ≠ 0
  cnt : st.cnt.toNat + p ≤ 32

theorem low_mask (v : Word) (s : Nat) (hs : s ≤ 32) : (v &&& (BitVec.allOnes 32 >>> (32 - s)) == 0) = decide (v.toNat % 2 ^ s = 0) := by
  have h : (BitVec.allOnes 32 >>> (32 - s)).toNat = 2 ^ s - 1 := by
    rw [BitVec.toNat_ushiftRight, BitVec.toNat_allOnes, Nat.shiftRight_eq_div_pow]
    have hp : 2 ^ 32 = 2 ^ s * 2 ^ (32 - s) := by rw [← Nat.pow_add]; congr 1; omega
    have h1 : 0 < 2 ^ s := Nat.two_pow_pos s
    have h2 : 0 < 2 ^ (32 - s) := Nat.two_pow_pos _
    rw [hp]
    apply Nat.div_eq_of_lt_le
    · have : (2 ^ s - 1) * 2 ^ (32 - s) = 2 ^ s * 2 ^ (32 - s) - 2 ^ (32 - s) := by rw [Nat.sub_mul, Nat.one_mul]
      omega
    · rw [Nat.sub_add_cancel h1]
      have : 0 < 2 ^ s * 2 ^ (32 - s) := Nat.mul_pos h1 h2
      omega
  rw [Bool.eq_iff_iff, beq_iff_eq, decide_eq_true_iff, ← BitVec.toNat_inj, BitVec.toNat_and, h, Nat.and_two_pow_sub_one_eq_mod]
  rfl

theorem half {s : Word} : (bvlshr s 1).toNat = s.toNat / 2 := by
  rw [bvlshr, BitVec.toNat_ushiftRight, Nat.shiftRight_eq_div_pow]
  rfl

theorem tz_step {w : Word} {st : CntSt} {s : Nat} (h : TzInv w st (2 * s)) (hs : st.shft.toNat = s) (h32 : 2 * s ≤ 32) :
    TzInv w (tzStep st) s ∧ (tzStep st).shft.toNat = s / 2 := by
  have hm : bvlshr st.mask st.shft = BitVec.allOnes 32 >>> (32 - s) := by
    rw [bvlshr, h.mask, hs, ← BitVec.shiftRight_add]
    congr 1
    omega
  have hc : (st.cnt + st.shft).toNat = st.cnt.toNat + s := by
    rw [BitVec.toNat_add, hs, Nat.mod_eq_of_lt]
    have := h.cnt
    omega
  unfold tzStep
  simp only [hm, low_mask _ _ (by omega : s ≤ 32)]
  split
  · next hz =>
    have hz := of_decide_eq_true hz
    have hv : (bvlshr st.val st.shft).toNat = st.val.toNat / 2 ^ s := by
      rw [bvlshr, BitVec.toNat_ushiftRight, hs, Nat.shiftRight_eq_div_pow]
    have hd : st.val.toNat = 2 ^ s * (st.val.toNat / 2 ^ s) := by
      have := Nat.div_add_mod st.val.toNat (2 ^ s)
      omega
    refine ⟨⟨rfl, ?_, ?_, ?_⟩, by rw [half, hs]⟩
    · show w.toNat = (bvlshr st.val st.shft).toNat * 2 ^ (st.cnt + st.shft).toNat
      rw [h.val, hv, hc, Nat.pow_add, Nat.mul_comm (2 ^ st.cnt.toNat), ← Nat.mul_assoc, Nat.mul_comm _ (2 ^ s), ← hd]
    · show (bvlshr st.val st.shft).toNat % 2 ^ s ≠ 0
      rw [hv]
      intro h0
      apply h.low
      rw [hd, Nat.two_mul, Nat.pow_add, Nat.mul_mod_mul_left, h0, Nat.mul_zero]
    · show (st.cnt + st.shft).toNat + s ≤ 32
      have := h.cnt
      omega
  · next hz =>
    have hz : ¬ st.val.toNat % 2 ^ s = 0 := fun e => hz (decide_eq_true e)
    refine ⟨⟨rfl, h.val, hz, ?_⟩, by rw [half, hs]⟩
    show st.cnt.toNat + s ≤ 32
    have := h.cnt
    omega

/-- The loop invariant of `CNTLZ` while the highest one is among the `p` highest bits of `val`. -/
structure LzInv (w : Word) (st : CntSt) (p : Nat) : Prop where
  mask : st.mask = BitVec.allOnes 32 <<< (32 - p)
  val : st.val.toNat = w.toNat * 2 ^ st.cnt.toNat
  high : 2 ^ (32 - p) ≤ st.val.toNat
  cnt : st.cnt.toNat + p ≤ 32

theorem high_mask (v : Word) (k : Nat) : (v &&& (BitVec.allOnes 32 <<< k) == 0) = decide (v.toNat < 2 ^ k) := by
  rw [Bool.eq_iff_iff, beq_iff_eq, decide_eq_true_iff]
  constructor
  · intro h
    apply Nat.lt_pow_two_of_testBit
    intro i hi
    have := congrArg (fun x : Word => x.getLsbD i) h
    simp only [BitVec.getLsbD_and, BitVec.getLsbD_shiftLeft, BitVec.getLsbD_allOnes] at this
    by_cases h32 : i < 32
    · have h1 : decide (i - k < 32) = true := decide_eq_true (by omega)
      have h2 : decide (i < k) = false := decide_eq_false (by omega)
      rw [h1, h2, decide_eq_true h32] at this
      simpa [BitVec.getLsbD] using this
    · exact BitVec.getLsbD_of_ge v i (by omega)
  · intro h
    apply BitVec.eq_of_getLsbD_eq
    intro i hi
    rw [BitVec.getLsbD_and, BitVec.getLsbD_shiftLeft]
    show _ = (0#32).getLsbD i
    rw [BitVec.getLsbD_zero]
    by_cases hk : i < k
    · simp [hk]
    · have : v.getLsbD i = false := Nat.testBit_lt_two_pow (Nat.lt_of_lt_of_le h (Nat.pow_le_pow_right (by decide) (by omega)))
      rw [this, Bool.false_and]

theorem lz_step {w : Word} {st : CntSt} {s : Nat} (h : LzInv w st (2 * s)) (hs : st.shft.toNat = s) (h32 : 2 * s ≤ 32) :
    LzInv w (lzStep st) s ∧ (lzStep st).shft.toNat = s / 2 := by
  have hm : bvshl st.mask st.shft = BitVec.allOnes 32 <<< (32 - s) := by
    rw [bvshl, h.mask, hs, ← BitVec.shiftLeft_add]
    congr 1
    omega
  have hc : (st.cnt + st.shft).toNat = st.cnt.toNat + s := by
    rw [BitVec.toNat_add, hs, Nat.mod_eq_of_lt]
    have := h.cnt
    omega
  unfold lzStep
  simp only [hm, high_mask]
  split
  · next hz =>
    have hz := of_decide_eq_true hz
    have hp : 2 ^ 32 = 2 ^ (32 - s) * 2 ^ s := by rw [← Nat.pow_add]; congr 1; omega
    have hv : (bvshl st.val st.shft).toNat = st.val.toNat * 2 ^ s := by
      rw [bvshl, BitVec.toNat_shiftLeft, hs, Nat.shiftLeft_eq, Nat.mod_eq_of_lt]
      rw [hp]
      exact Nat.mul_lt_mul_of_pos_right hz (Nat.two_pow_pos s)
    refine ⟨⟨rfl, ?_, ?_, ?_⟩, by rw [half, hs]⟩
    · show (bvshl st.val st.shft).toNat = w.toNat * 2 ^ (st.cnt + st.shft).toNat
      rw [hv, hc, h.val, Nat.pow_add, Nat.mul_assoc]
    · show 2 ^ (32 - s) ≤ (bvshl st.val st.shft).toNat
      rw [hv]
      have : 2 ^ (32 - s) = 2 ^ (32 - 2 * s) * 2 ^ s := by rw [← Nat.pow_add]; congr 1; omega
      rw [this]
      exact Nat.mul_le_mul_right _ h.high
    · show (st.cnt + st.shft).toNat + s ≤ 32
      have := h.cnt
      omega
  · next hz =>
    have hz : ¬ st.val.toNat < 2 ^ (32 - s) := fun e => hz (decide_eq_true e)
    refine ⟨⟨rfl, h.val, Nat.le_of_not_lt hz, ?_⟩, by rw [half, hs]⟩
    show st.cnt.toNat + s ≤ 32
    have := h.cnt
    omega

theorem loop_run {Inv : CntSt → Nat → Prop} {step : CntSt → CntSt}
    (hstep : ∀ st s, Inv st (2 * s) → st.shft.toNat = s → 2 * s ≤ 32 → Inv (step st) s ∧ (step st).shft.toNat = s / 2)
    {w : Word} (h0 : Inv ⟨BitVec.ofInt 32 (-1), 16, 0, w⟩ 32) (hw : w ≠ 0) :
    ∃ st, countLoop step w = .ok st.cnt ∧ Inv st 1 := by
  obtain ⟨a1, b1⟩ := hstep _ 16 h0 rfl (by decide)
  obtain ⟨a2, b2⟩ := hstep _ 8 a1 b1 (by decide)
  obtain ⟨a3, b3⟩ := hstep _ 4 a2 b2 (by decide)
  obtain ⟨a4, b4⟩ := hstep _ 2 a3 b3 (by decide)
  obtain ⟨a5, b5⟩ := hstep _ 1 a4 b4 (by decide)
  refine ⟨_, ?_, a5⟩
  unfold countLoop
  rw [if_neg (by simpa using hw)]
  have hn : List.range (bitLength 32 - 1) = [0, 1, 2, 3, 4] := by decide
  simp only [hn, List.foldl_cons, List.foldl_nil]
  rw [if_pos]
  rw [beq_iff_eq]
  exact BitVec.eq_of_toNat_eq b5

theorem bitsOf_get (w : Word) (i : Nat) (h : i < 32) : (bitsOf w)[i]? = some (w.getLsbD i) := by
  simp [bitsOf, h]

/-- C46: `CNTTZ` returns the number of trailing zeros of every word. -/
theorem C46_cnttz (w : Word) : ∃ r, bitCounter .CNTTZ w = .ok r ∧ r.toNat = trailing w := by
  by_cases hw : w = 0
  · subst hw
    exact ⟨32, rfl, by decide⟩
  · have hp : w.toNat ≠ 0 := fun h => hw (BitVec.eq_of_toNat_eq h)
    obtain ⟨st, h1, h2⟩ := loop_run (Inv := fun st p => TzInv w st p) (fun st s a b c => tz_step a b c) (w := w)
      ⟨(by decide : BitVec.ofInt 32 (-1) = BitVec.allOnes 32 >>> (32 - 32)), by simp, by
        show w.toNat % 2 ^ 32 ≠ 0
        rw [Nat.mod_eq_of_lt w.isLt]; exact hp, (by decide : (0 : Word).toNat + 32 ≤ 32)⟩ hw
    refine ⟨_, h1, ?_⟩
    have hc := h2.cnt
    rw [trailing, takeWhile_len _ st.cnt.toNat]
    · intro i hi
      rw [bitsOf_get _ _ (by omega)]
      congr 1
      show w.toNat.testBit i = false
      rw [h2.val, Nat.testBit_mul_two_pow]
      rw [decide_eq_false (by omega), Bool.false_and]
    · rw [bitsOf_get _ _ (by omega)]
      congr 1
      show w.toNat.testBit _ = true
      rw [h2.val, Nat.testBit_mul_two_pow]
      have := h2.low
      simp [Nat.testBit_zero]
      omega

/-- C46: `CNTLZ` returns the number of leading zeros of every word. -/
theorem C46_cntlz (w : Word) : ∃ r, bitCounter .CNTLZ w = .ok r ∧ r.toNat = leading w := by
  by_cases hw : w = 0
  · subst hw
    exact ⟨32, rfl, by decide⟩
  · have hp : w.toNat ≠ 0 := fun h => hw (BitVec.eq_of_toNat_eq h)
    obtain ⟨st, h1, h2⟩ := loop_run (Inv := fun st p => LzInv w st p) (fun st s a b c => lz_step a b c) (w := w)
      ⟨(by decide : BitVec.ofInt 32 (-1) = BitVec.allOnes 32 <<< (32 - 32)), by simp, by
        show 1 ≤ w.toNat
        omega, (by decide : (0 : Word).toNat + 32 ≤ 32)⟩ hw
    refine ⟨_, h1, ?_⟩
    have hc := h2.cnt
    have hlen : (bitsOf w).length = 32 := by simp [bitsOf]
    have hlt := st.val.isLt
    have hhi : 2 ^ 31 ≤ st.val.toNat := h2.high
    rw [h2.val] at hlt hhi
    have e1 : 2 ^ 32 = 2 ^ (32 - st.cnt.toNat) * 2 ^ st.cnt.toNat := by rw [← Nat.pow_add]; congr 1; omega
    have e2 : 2 ^ 31 = 2 ^ (31 - st.cnt.toNat) * 2 ^ st.cnt.toNat := by rw [← Nat.pow_add]; congr 1; omega
    rw [e1] at hlt
    rw [e2] at hhi
    have hlt' : w.toNat < 2 ^ (32 - st.cnt.toNat) := Nat.lt_of_mul_lt_mul_right hlt
    have hhi' : 2 ^ (31 - st.cnt.toNat) ≤ w.toNat := Nat.le_of_mul_le_mul_right hhi (Nat.two_pow_pos _)
    rw [leading, takeWhile_len _ st.cnt.toNat]
    · intro i hi
      rw [List.getElem?_reverse (by omega), hlen, bitsOf_get _ _ (by omega)]
      congr 1
      exact Nat.testBit_lt_two_pow (Nat.lt_of_lt_of_le hlt' (Nat.pow_le_pow_right (by decide) (by omega)))
    · rw [List.getElem?_reverse (by omega), hlen, bitsOf_get _ _ (by omega)]
      congr 1
      show w.toNat.testBit _ = true
      have : 32 - 1 - st.cnt.toNat = 31 - st.cnt.toNat := by omega
      rw [this]
      have e3 : 32 - st.cnt.toNat = (31 - st.cnt.toNat) + 1 := by omega
      rw [e3, Nat.pow_succ] at hlt'
      rw [Nat.testBit_eq_decide_div_mod_eq]
      have : w.toNat / 2 ^ (31 - st.cnt.toNat) = 1 := by
        apply Nat.div_eq_of_lt_le <;> omega
      rw [this]
      rfl
/-- The count an extension instruction is named after. -/
def bitSpec : BitInst → Word → Nat
  | .POPCNT => ones
  | .CNTLZ => leading
  | .CNTTZ => trailing

/-- C46: the instruction writes the count to its destination register, changes no other register and goes on to the next instruction. -/
theorem C46_instruction {rf : PyRF} {rs : Idx} {w : Word} (h : pyLoad rf rs = .ok w) (rd : Idx) (tag : BitInst) (pc : Word) :
    ∃ rf', extCall pyFile true rf (.Ext rd rs tag) pc = .ok (rf', pc + 4) ∧
      (rd ≠ 0 → ∃ r, pyLoad rf' rd = .ok r ∧ r.toNat = bitSpec tag w) ∧ ∀ i, i ≠ rd ∨ i = 0 → pyLoad rf' i = pyLoad rf i := by
  obtain ⟨r, h1, h2⟩ : ∃ r, bitCounter tag w = .ok r ∧ r.toNat = bitSpec tag w := by
    cases tag
    · exact C46_popcnt w
    · exact C46_cntlz w
    · exact C46_cnttz w
  refine ⟨pyStore rf rd r, ?_, ?_, ?_⟩
  · have hd : extDecode (pyFile.load1 rf) (pyFile.load2 rf) true pc (.Ext rd rs tag) =
        .ok { a := r, b := 0, exec := .arith .ADD, rd := rd } := by
      simp only [extDecode, show pyFile.load1 = pyLoad from rfl, h]
      show (bitCounter tag w >>= _) = _
      rw [h1]
      rfl
    unfold extCall
    rw [hd]
    show Except.ok (pyStore rf rd ((r + 0) &&& BitVec.ofInt 32 (-1)), pc + 4) = _
    rw [full_mask]
    have : r + 0 = r := BitVec.add_zero r
    rw [this]
  · intro hz
    refine ⟨r, ?_, h2⟩
    unfold pyLoad
    rw [store_apply, if_pos ⟨rfl, hz⟩]
  · intro i hi
    unfold pyLoad
    rw [store_apply, if_neg]
    rintro ⟨a, b⟩
    rcases hi with hi | hi
    · exact hi a
    · exact b hi

/-- C46: the base instructions behave in the extension as they do in the base simulator, so that C43, C44 apply to them. -/
theorem C46_base {σ : Type} (F : RegFile σ) (as : Bool) (s : σ) (i : Inst) (pc : Word) : extCall F as s (.base i) pc = call F as s i pc := rfl

/-- A case of C46: the word 0x00ff0000. -/
example : ones 0x00ff0000 = 8 ∧ leading 0x00ff0000 = 8 ∧ trailing 0x00ff0000 = 16 ∧
    pyLoad (fun i => some (demoX i)) 1 = .ok 33 := by
  refine ⟨?_, ?_, ?_, rfl⟩ <;> decide +kernel

end Peak.RV
