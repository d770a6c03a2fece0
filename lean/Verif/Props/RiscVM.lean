import Verif.Spec.RiscVM
import Verif.Props.RiscV
/-!
# C59: multiplication and division in the RISC-V example
-/

namespace Peak.RV

theorem high_ofInt (p : Int) : high (BitVec.ofInt 64 p) = BitVec.ofInt 32 (p / 2 ^ 32) := by
  apply BitVec.eq_of_toNat_eq
  unfold high
  rw [BitVec.extractLsb'_toNat, BitVec.toNat_ofInt, BitVec.toNat_ofInt, Nat.shiftRight_eq_div_pow]
  omega

theorem sext64 (a : Word) : sext a 32 = BitVec.ofInt 64 a.toInt := by
  apply BitVec.eq_of_toInt_eq
  unfold sext
  rw [BitVec.toInt_signExtend_of_le (by decide), BitVec.toInt_ofInt]
  have h1 := BitVec.toInt_lt (x := a)
  have h2 := BitVec.le_toInt (x := a)
  exact (Int.bmod_eq_of_le (by omega) (by omega)).symm

theorem zext_ofInt (a : Word) : zext a 32 = BitVec.ofInt 64 a.toNat := by
  apply BitVec.eq_of_toNat_eq
  unfold zext
  have := a.isLt
  rw [BitVec.toNat_setWidth, BitVec.toNat_ofInt]
  omega

theorem toInt_zero_iff (b : Word) : b.toInt = 0 ↔ b = 0 := by
  constructor
  · intro h
    exact BitVec.eq_of_toInt_eq (by rw [h]; rfl)
  · intro h; rw [h]; rfl

theorem toNat_zero_iff (b : Word) : b.toNat = 0 ↔ b = 0 := by
  constructor
  · intro h
    exact BitVec.eq_of_toNat_eq (by rw [h]; rfl)
  · intro h; rw [h]; rfl

/-- Everything but signed division is right, whatever the library does for signed division. -/
theorem mulDiv_unsigned (ops : DivOps) (t : MulDivInst) (a b : Word) (h : t ≠ .DIV ∧ t ≠ .REM) : mulDiv ops t a b = isaMulDiv t a b := by
  cases t with
  | MUL =>
    apply BitVec.eq_of_toNat_eq
    show (a * b).toNat = (BitVec.ofNat 32 (a.toNat * b.toNat)).toNat
    rw [BitVec.toNat_mul, BitVec.toNat_ofNat]
  | MULH =>
    show high (sext a 32 * sext b 32) = BitVec.ofInt 32 (a.toInt * b.toInt / 2 ^ 32)
    rw [← high_ofInt, sext64, sext64, BitVec.ofInt_mul]
  | MULHU =>
    show high (zext a 32 * zext b 32) = BitVec.ofNat 32 (a.toNat * b.toNat / 2 ^ 32)
    rw [zext_ofInt, zext_ofInt, ← BitVec.ofInt_mul, high_ofInt]
    have : ((a.toNat : Int) * b.toNat / 2 ^ 32) = ((a.toNat * b.toNat / 2 ^ 32 : Nat) : Int) := by
      rw [Int.natCast_ediv, Int.natCast_mul]; rfl
    rw [this, BitVec.ofInt_natCast]
  | MULHSU =>
    show high (sext a 32 * zext b 32) = BitVec.ofInt 32 (a.toInt * b.toNat / 2 ^ 32)
    rw [← high_ofInt, sext64, zext_ofInt, BitVec.ofInt_mul]
  | DIV => exact absurd rfl h.1
  | REM => exact absurd rfl h.2
  | DIVU =>
    show bvudiv a b = if b.toNat = 0 then BitVec.ofNat 32 (2 ^ 32 - 1) else BitVec.ofNat 32 (a.toNat / b.toNat)
    unfold bvudiv
    by_cases hb : b = 0
    · rw [if_pos hb, if_pos ((toNat_zero_iff b).mpr hb)]; rfl
    · rw [if_neg hb, if_neg (fun h => hb ((toNat_zero_iff b).mp h))]
      apply BitVec.eq_of_toNat_eq
      have h1 := a.isLt
      have h2 : a.toNat / b.toNat ≤ a.toNat := Nat.div_le_self _ _
      rw [BitVec.toNat_udiv, BitVec.toNat_ofNat, Nat.mod_eq_of_lt (by omega)]
  | REMU =>
    show bvurem a b = if b.toNat = 0 then a else BitVec.ofNat 32 (a.toNat % b.toNat)
    unfold bvurem
    by_cases hb : b = 0
    · rw [if_pos hb, if_pos ((toNat_zero_iff b).mpr hb)]
    · rw [if_neg hb, if_neg (fun h => hb ((toNat_zero_iff b).mp h))]
      apply BitVec.eq_of_toNat_eq
      have h1 := a.isLt
      have h2 : a.toNat % b.toNat ≤ a.toNat := Nat.mod_le _ _
      rw [BitVec.toNat_umod, BitVec.toNat_ofNat, Nat.mod_eq_of_lt (Nat.lt_of_le_of_lt h2 h1)]

theorem smtSDiv_ne (a b : Word) (hb : b ≠ 0) : a.smtSDiv b = a.sdiv b := by
  have hb' : b ≠ 0#32 := hb
  unfold BitVec.smtSDiv BitVec.sdiv
  have h1 : ∀ x y : Word, y ≠ 0#32 → x.smtUDiv y = x.udiv y := by
    intro x y hy
    unfold BitVec.smtUDiv
    exact if_neg hy
  have hn : -b ≠ 0#32 := fun h => hb' (by have := congrArg (fun x => -x) h; simpa using this)
  cases a.msb <;> cases b.msb <;> simp only [h1 _ b hb', h1 _ (BitVec.neg b) hn]

/-- The overflow case agrees with rounding towards zero, modulo 2^32. -/
theorem isa_div_eq (a b : Word) (hb : b.toInt ≠ 0) : isaMulDiv .DIV a b = BitVec.ofInt 32 (a.toInt.tdiv b.toInt) := by
  show (if b.toInt = 0 then _ else if a.toInt = -2 ^ 31 ∧ b.toInt = -1 then _ else _) = _
  rw [if_neg hb]
  split
  · next h => rw [h.1, h.2]; rfl
  · rfl

theorem isa_rem_eq (a b : Word) (hb : b.toInt ≠ 0) : isaMulDiv .REM a b = BitVec.ofInt 32 (a.toInt.tmod b.toInt) := by
  show (if b.toInt = 0 then _ else if a.toInt = -2 ^ 31 ∧ b.toInt = -1 then _ else _) = _
  rw [if_neg hb]
  split
  · next h => rw [h.1, h.2]; rfl
  · rfl

theorem isa_div_zero (a : Word) : isaMulDiv .DIV a 0 = BitVec.ofInt 32 (-1) := by
  have h1 : (0 : Word).toInt = 0 := by decide
  simp only [isaMulDiv, h1, if_true]

/-- With the divisions of SMT-LIB all operations are those of the manual, but for the division of a negative number by 0. -/
theorem mulDiv_smt (t : MulDivInst) (a b : Word) (h : t = .DIV → b.toInt ≠ 0 ∨ 0 ≤ a.toInt) : mulDiv smtOps t a b = isaMulDiv t a b := by
  by_cases hd : t = .DIV
  · subst hd
    by_cases hb : b = 0
    · have ha : 0 ≤ a.toInt := by
        rcases h rfl with h | h
        · exact absurd ((toInt_zero_iff b).mpr hb) h
        · exact h
      subst hb
      show a.smtSDiv 0 = _
      have hm : a.msb = false := by rw [BitVec.msb_eq_toInt]; simpa using ha
      have h0 : (0 : Word).msb = false := by decide
      have hu : ∀ x : Word, x.smtUDiv 0 = BitVec.allOnes 32 := fun x => by unfold BitVec.smtUDiv; exact if_pos rfl
      unfold BitVec.smtSDiv
      rw [hm, h0]
      simp only [hu]
      rw [isa_div_zero]
      decide
    · have hb' : b.toInt ≠ 0 := fun h => hb ((toInt_zero_iff b).mp h)
      rw [isa_div_eq a b hb']
      show a.smtSDiv b = _
      rw [smtSDiv_ne a b hb]
      apply BitVec.eq_of_toInt_eq
      rw [BitVec.toInt_sdiv, BitVec.toInt_ofInt]
  · by_cases hr : t = .REM
    · subst hr
      show a.srem b = _
      by_cases hb : b = 0
      · subst hb
        show a.srem 0#32 = a
        rw [BitVec.srem_zero]
      · have hb' : b.toInt ≠ 0 := fun h => hb ((toInt_zero_iff b).mp h)
        rw [isa_rem_eq a b hb']
        apply BitVec.eq_of_toInt_eq
        rw [BitVec.toInt_srem, BitVec.toInt_ofInt, ← BitVec.toInt_srem, BitVec.toInt_bmod_cancel]
    · exact mulDiv_unsigned smtOps t a b ⟨hd, hr⟩

/-- With floor division they are, when the quotient is exact or the signs agree. -/
theorem mulDiv_floor (t : MulDivInst) (a b : Word)
    (h : t = .DIV ∨ t = .REM → b.toInt = 0 ∨ b.toInt ∣ a.toInt ∨ (0 ≤ a.toInt ∧ 0 ≤ b.toInt) ∨ (a.toInt ≤ 0 ∧ b.toInt ≤ 0)) :
    mulDiv floorOps t a b = isaMulDiv t a b := by
  have key : b.toInt ≠ 0 → (b.toInt ∣ a.toInt ∨ (0 ≤ a.toInt ∧ 0 ≤ b.toInt) ∨ (a.toInt ≤ 0 ∧ b.toInt ≤ 0)) →
      a.toInt.fdiv b.toInt = a.toInt.tdiv b.toInt ∧ a.toInt.fmod b.toInt = a.toInt.tmod b.toInt := by
    intro hb h
    have hdiv : a.toInt.fdiv b.toInt = a.toInt.tdiv b.toInt := by
      rcases h with ⟨k, hk⟩ | ⟨h1, h2⟩ | ⟨h1, h2⟩
      · rw [hk, Int.mul_fdiv_cancel_left _ hb, Int.mul_tdiv_cancel_left _ hb]
      · rw [Int.fdiv_eq_tdiv_of_nonneg h1 h2]
      · generalize a.toInt = x at *
        generalize b.toInt = y at *
        rw [show x = -(-x) from by omega, show y = -(-y) from by omega, Int.neg_tdiv_neg, Int.neg_fdiv_neg,
          Int.fdiv_eq_tdiv_of_nonneg (by omega) (by omega)]
    refine ⟨hdiv, ?_⟩
    have e1 := Int.mul_fdiv_add_fmod a.toInt b.toInt
    have e2 := Int.mul_tdiv_add_tmod a.toInt b.toInt
    rw [hdiv] at e1
    omega
  by_cases hd : t = .DIV
  · subst hd
    show floorOps.bvsdiv a b = _
    unfold floorOps
    by_cases hb : b = 0
    · subst hb; rfl
    · have hb' : b.toInt ≠ 0 := fun h => hb ((toInt_zero_iff b).mp h)
      have hh := (h (.inl rfl)).resolve_left hb'
      rw [isa_div_eq a b hb']
      simp only []
      rw [if_neg hb, (key hb' hh).1]
  · by_cases hr : t = .REM
    · subst hr
      show floorOps.bvsrem a b = _
      unfold floorOps
      by_cases hb : b = 0
      · subst hb; rfl
      · have hb' : b.toInt ≠ 0 := fun h => hb ((toInt_zero_iff b).mp h)
        have hh := (h (.inr rfl)).resolve_left hb'
        rw [isa_rem_eq a b hb']
        simp only []
        rw [if_neg hb, (key hb' hh).2]
    · exact mulDiv_unsigned floorOps t a b ⟨hd, hr⟩

/-! ## The simulator -/

/-- The two readings of the library. -/
inductive Lib | smt | floor
  deriving DecidableEq

def Lib.ops : Lib → DivOps
  | .smt => smtOps
  | .floor => floorOps

/-- What the simulator gets right. -/
def CoveredM (lib : Lib) (x : Idx → Word) : InstM → Prop
  | .base i => Covered x i
  | .muldiv d t =>
    match lib with
    | .smt => t = .DIV → (x d.rs2).toInt ≠ 0 ∨ 0 ≤ (x d.rs1).toInt
    | .floor => t = .DIV ∨ t = .REM → (x d.rs2).toInt = 0 ∨ (x d.rs2).toInt ∣ (x d.rs1).toInt ∨
        (0 ≤ (x d.rs1).toInt ∧ 0 ≤ (x d.rs2).toInt) ∨ ((x d.rs1).toInt ≤ 0 ∧ (x d.rs2).toInt ≤ 0)

theorem covered_mulDiv (lib : Lib) (x : Idx → Word) (d : R) (t : MulDivInst) (h : CoveredM lib x (.muldiv d t)) :
    mulDiv lib.ops t (x d.rs1) (x d.rs2) = isaMulDiv t (x d.rs1) (x d.rs2) := by
  cases lib with
  | smt => exact mulDiv_smt t _ _ h
  | floor => exact mulDiv_floor t _ _ h

theorem commit_plain (a b : Word) (e : AluInst) (rd : Idx) (pc c : Word) : commit { a := a, b := b, exec := e, rd := rd } pc c = (c, pc + 4) := by
  unfold commit
  simp only [Bool.false_eq_true, if_false]
  have : (BitVec.ofInt 32 (-1) : Word) = BitVec.allOnes 32 := rfl
  rw [this, BitVec.and_allOnes]

/-- C59, one instruction. -/
theorem C59_step_partial (lib : Lib) {rf : PyRF} {x : Idx → Word} {inst : InstM} (pc : Word) (hs : ∀ i ∈ inst.sources, pyLoad rf i = .ok (x i))
    (hc : CoveredM lib x inst) :
    ∃ rf', pyCallM lib.ops rf inst pc = .ok (rf', (isaStepM ⟨x, pc⟩ inst).pc) ∧
      ∀ i, pyLoad rf' i = if inst.dest = some i ∧ i ≠ 0 then .ok ((isaStepM ⟨x, pc⟩ inst).x i) else pyLoad rf i := by
  cases inst with
  | base i =>
    obtain ⟨rf', h1, h2⟩ := C44_step_partial (inst := i) pc hs hc
    refine ⟨rf', h1, fun j => ?_⟩
    rw [h2 j]
    show _ = if i.dest = some j ∧ j ≠ 0 then Except.ok (if i.dest = some j ∧ j ≠ 0 then isaResult x pc i else x j) else _
    by_cases h : i.dest = some j ∧ j ≠ 0
    · simp only [if_pos h]
    · simp only [if_neg h]
  | muldiv d t =>
    have h1 : pyLoad rf d.rs1 = .ok (x d.rs1) := hs d.rs1 (by simp [InstM.sources])
    have h2 : pyLoad rf d.rs2 = .ok (x d.rs2) := hs d.rs2 (by simp [InstM.sources])
    have hcall : pyCallM lib.ops rf (.muldiv d t) pc = .ok (pyStore rf d.rd (isaMulDiv t (x d.rs1) (x d.rs2)), pc + 4) := by
      simp only [pyCallM, callM, pyFile, h1, h2, bind, Except.bind, commit_plain, covered_mulDiv lib x d t hc]
      rfl
    refine ⟨pyStore rf d.rd (isaMulDiv t (x d.rs1) (x d.rs2)), hcall.trans ?_, fun j => ?_⟩
    · exact congrArg (fun q => Except.ok (_, q)) (add4 pc).symm
    · unfold pyLoad
      rw [store_apply]
      show _ = if some d.rd = some j ∧ j ≠ 0 then Except.ok (if j = d.rd ∧ j ≠ 0 then _ else x j) else _
      by_cases h : j = d.rd ∧ j ≠ 0
      · rw [if_pos h, if_pos ⟨by rw [h.1], h.2⟩, if_pos h]
      · rw [if_neg h, if_neg (fun h' => h ⟨(Option.some.inj h'.1).symm, h'.2⟩)]

/-- C59, programs of any length. -/
theorem C59_run_partial (lib : Lib) (prog : Word → InstM) (n : Nat) : ∀ (rf : PyRF) (m : Mach), (∀ i, pyLoad rf i = .ok (m.x i)) →
    (∀ k, k < n → CoveredM lib (isaRunM prog k m).x (prog (isaRunM prog k m).pc)) →
    ∃ rf', pyRunM lib.ops prog n rf m.pc = .ok (rf', (isaRunM prog n m).pc) ∧ ∀ i, pyLoad rf' i = .ok ((isaRunM prog n m).x i) := by
  induction n with
  | zero => exact fun rf m h _ => ⟨rf, rfl, h⟩
  | succ n ih =>
    intro rf m h hc
    obtain ⟨rf1, h1, h2⟩ := C59_step_partial lib (inst := prog m.pc) m.pc (fun i _ => h i) (hc 0 (Nat.succ_pos n))
    obtain ⟨rf2, h3, h4⟩ := ih rf1 (isaStepM m (prog m.pc)) (fun i => by
        rw [h2 i, h i]
        split
        · rfl
        · next hn =>
          cases hp : prog m.pc with
          | base j =>
            rw [hp] at hn
            show _ = Except.ok (if j.dest = some i ∧ i ≠ 0 then _ else m.x i)
            exact congrArg Except.ok (if_neg hn).symm
          | muldiv d t =>
            rw [hp] at hn
            show _ = Except.ok (if i = d.rd ∧ i ≠ 0 then _ else m.x i)
            rw [if_neg (fun h' => hn ⟨by show some d.rd = some i; rw [h'.1], h'.2⟩)])
      (fun k hk => hc (k + 1) (Nat.succ_lt_succ hk))
    refine ⟨rf2, ?_, h4⟩
    simp only [pyRunM, h1]
    exact h3

/-- An endless program: multiply and divide, in both readings of the library. -/
example (lib : Lib) (n : Nat) : ∃ rf', pyRunM lib.ops (fun pc => if pc = 0 then .muldiv ⟨2, 2, 1⟩ .MULHSU else if pc = 4 then .muldiv ⟨3, 2, 0⟩ .DIVU
    else .base (.JAL ⟨0, -4⟩)) n (fun i => some (demoX i)) 0 = .ok (rf', (isaRunM (fun pc => if pc = 0 then .muldiv ⟨2, 2, 1⟩ .MULHSU
      else if pc = 4 then .muldiv ⟨3, 2, 0⟩ .DIVU else .base (.JAL ⟨0, -4⟩)) n ⟨demoX, 0⟩).pc) := by
  obtain ⟨rf', h, _⟩ := C59_run_partial lib (fun pc => if pc = 0 then .muldiv ⟨2, 2, 1⟩ .MULHSU else if pc = 4 then .muldiv ⟨3, 2, 0⟩ .DIVU
    else .base (.JAL ⟨0, -4⟩)) n (fun i => some (demoX i)) ⟨demoX, 0⟩ (fun i => rfl) (fun k _ => by
      show CoveredM lib _ (if _ then _ else if _ then _ else _)
      split
      · cases lib <;> simp [CoveredM]
      · split
        · cases lib <;> simp [CoveredM]
        · exact trivial)
  exact ⟨rf', h⟩

/-- Signed division of negative numbers, both readings. -/
example (lib : Lib) : ∃ rf', pyCallM lib.ops (fun i => if i = 1 then some (-12) else some 4) (.muldiv ⟨3, 1, 2⟩ .DIV) 100 = .ok (rf', 104) ∧
    pyLoad rf' 3 = .ok (-3) := by
  obtain ⟨rf', h1, h2⟩ := C59_step_partial lib (rf := fun i => if i = 1 then some (-12) else some 4) (x := fun i => if i = 1 then -12 else 4)
    (inst := .muldiv ⟨3, 1, 2⟩ .DIV) 100 (fun i _ => by show pyLoad _ i = Except.ok (if i = 1 then -12 else 4); unfold pyLoad; by_cases h : i = 1 <;> simp only [h, if_true, if_false]) (by
      cases lib with
      | smt => exact fun _ => .inl (by decide)
      | floor => exact fun _ => .inr (.inl (by decide)))
  exact ⟨rf', h1, (h2 3).trans (by rfl)⟩

/-- The value of `mappable` is the simulator's (as C51). -/
theorem C59_mappable {ops : DivOps} {rf rf' : PyRF} {d : R} {t : MulDivInst} {pc pc' rs1 rs2 rd : Word} (h0 : pyLoad rf 0 = .ok 0)
    (h1 : d.rs1 ≠ 0 → pyLoad rf d.rs1 = .ok rs1) (h2 : d.rs2 ≠ 0 → pyLoad rf d.rs2 = .ok rs2)
    (h : pyCallM ops rf (.muldiv d t) pc = .ok (rf', pc')) :
    ∃ out, mappableM ops (.muldiv d t) pc rs1 rs2 rd = .ok (pc', out) ∧ (d.rd ≠ 0 → pyLoad rf' d.rd = .ok out) ∧ (d.rd = 0 → out = rd) := by
  have e1 : pyLoad rf d.rs1 = .ok (if d.rs1 ≠ 0 then rs1 else 0) := by
    by_cases hz : d.rs1 = 0
    · rw [hz, if_neg (fun h => h rfl)]; exact h0
    · rw [if_pos hz]; exact h1 hz
  have e2 : pyLoad rf d.rs2 = .ok (if d.rs2 ≠ 0 then rs2 else 0) := by
    by_cases hz : d.rs2 = 0
    · rw [hz, if_neg (fun h => h rfl)]; exact h0
    · rw [if_pos hz]; exact h2 hz
  simp only [pyCallM, callM, pyFile, e1, e2, bind, Except.bind, commit_plain] at h
  cases h
  refine ⟨_, rfl, fun hz => ?_, fun hz => ?_⟩
  · unfold pyLoad
    rw [store_apply, if_pos ⟨rfl, hz⟩]
    show Except.ok _ = Except.ok (if d.rd ≠ 0 then _ else rd)
    rw [if_pos hz]
    exact congrArg (fun p : Word × Word => (Except.ok p.1 : Except Err Word)) (commit_plain _ _ _ d.rd pc _).symm
  · show (if d.rd ≠ 0 then _ else rd) = rd
    rw [if_neg (fun h => h hz)]

/-- A high product, with the same value in the simulator and in `mappable`. -/
example : ∃ rf' out, pyCallM smtOps (fun i => if i = 0 then some 0 else some (-3)) (.muldiv ⟨5, 1, 2⟩ .MULHU) 8 = .ok (rf', 12) ∧
    mappableM smtOps (.muldiv ⟨5, 1, 2⟩ .MULHU) 8 (-3) (-3) 7 = .ok (12, out) ∧ pyLoad rf' 5 = .ok out := by
  have hl : ∀ i : Idx, i ≠ 0 → pyLoad (fun i => if i = 0 then some 0 else some (-3)) i = .ok (-3) := fun i hi => by
    unfold pyLoad; simp only [if_neg hi]
  have hc : pyCallM smtOps (fun i => if i = 0 then some 0 else some (-3)) (.muldiv ⟨5, 1, 2⟩ .MULHU) 8 = .ok (_, 12) := rfl
  obtain ⟨out, h1, h2, _⟩ := C59_mappable (rd := 7) (by rfl) (fun _ => hl 1 (by decide)) (fun _ => hl 2 (by decide)) hc
  exact ⟨_, out, hc, h1, h2 (by decide)⟩

/-! ## Where it differs from the manual -/

/-- SMT-LIB: a negative number divided by 0 is 1 (the manual: -1), for all negative numbers: the rewrite rules found for `div` would be wrong. -/
theorem C59_violated_smt (a : Word) (ha : a.toInt < 0) : mulDiv smtOps .DIV a 0 = 1 ∧ isaMulDiv .DIV a 0 = BitVec.ofInt 32 (-1) := by
  refine ⟨?_, isa_div_zero a⟩
  show a.smtSDiv 0 = 1
  have hm : a.msb = true := by rw [BitVec.msb_eq_toInt]; simpa using ha
  have h0 : (0 : Word).msb = false := by decide
  have hu : ∀ x : Word, x.smtUDiv 0 = BitVec.allOnes 32 := fun x => by unfold BitVec.smtUDiv; exact if_pos rfl
  unfold BitVec.smtSDiv
  rw [hm, h0]
  simp only [hu]
  decide

/-- Python's floor division: -7 / 2 is -4 with remainder 1 (the manual: -3 and -1). -/
theorem C59_violated_floor : mulDiv floorOps .DIV (-7) 2 = -4 ∧ isaMulDiv .DIV (-7) 2 = -3 ∧ mulDiv floorOps .REM (-7) 2 = 1 ∧ isaMulDiv .REM (-7) 2 = -1 := by
  have h1 : (-7 : Word).toInt = -7 := by decide
  have h2 : (2 : Word).toInt = 2 := by decide
  have h3 : (2 : Word) ≠ 0 := by decide
  refine ⟨?_, ?_, ?_, ?_⟩
  · show (if (2 : Word) = 0 then BitVec.ofInt 32 (-1) else BitVec.ofInt 32 (Int.fdiv (-7 : Word).toInt (2 : Word).toInt)) = -4
    rw [if_neg h3, h1, h2]; decide
  · rw [isa_div_eq _ _ (by rw [h2]; decide), h1, h2]; decide
  · show (if (2 : Word) = 0 then (-7 : Word) else BitVec.ofInt 32 (Int.fmod (-7 : Word).toInt (2 : Word).toInt)) = 1
    rw [if_neg h3, h1, h2]; decide
  · rw [isa_rem_eq _ _ (by rw [h2]; decide), h1, h2]; decide

end Peak.RV
