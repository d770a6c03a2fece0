import Verif.Spec.Arm
import Verif.Props.Bitfield
/-!
# C69: the ARM instruction builders (examples/arm)
-/

namespace Peak.Arm

theorem bits_length (w : Word) : (bits w).length = 32 := by simp [bits]

theorem rol_eq (w : Word) {n : Nat} (hn : n < 32) : rol w n = w.rotateRight n := by
  apply BitVec.eq_of_getLsbD_eq
  intro i hi
  simp only [rol, ofBits, BitVec.getLsbD_setWidth, hi, decide_true, Bool.true_and, BitVec.getLsbD_ofBoolListLE, BitVec.getLsbD_rotateRight, cond_eq_ite, decide_eq_true_eq]
  rw [Nat.mod_eq_of_lt hn, List.getD_eq_getElem?_getD]
  have hl : ((bits w).drop n).length = 32 - n := by simp [bits_length]
  by_cases h : i < 32 - n
  · rw [if_pos h, List.getElem?_append_left (by rw [hl]; exact h), List.getElem?_drop]
    simp [bits, List.getElem?_map, List.getElem?_range (show n + i < 32 by omega)]
  · rw [if_neg h, List.getElem?_append_right (by rw [hl]; omega), hl, List.getElem?_take_of_lt (by omega)]
    simp [bits, List.getElem?_map, List.getElem?_range (show i - (32 - n) < 32 by omega)]

/-- The word that has `r` after the rotation. -/
def wordAt (i r : Nat) : Word := ((BitVec.ofNat 8 r).setWidth 32).rotateLeft (2 * i)

theorem at_of_lt {w : Word} {i : Nat} (hi : i < 16) (h : (w.rotateRight (2 * i)).ult 256 = true) : ∃ r < 256, w = wordAt i r := by
  refine ⟨(w.rotateRight (2 * i)).toNat, by simpa [BitVec.ult] using h, ?_⟩
  have : (BitVec.ofNat 8 (w.rotateRight (2 * i)).toNat).setWidth 32 = w.rotateRight (2 * i) := by
    apply BitVec.eq_of_toNat_eq
    have h' : (w.rotateRight (2 * i)).toNat < 256 := by simpa [BitVec.ult] using h
    simp only [BitVec.toNat_setWidth, BitVec.toNat_ofNat]
    omega
  rw [wordAt, this]
  apply BitVec.eq_of_getLsbD_eq
  intro j hj
  simp only [BitVec.getLsbD_rotateLeft, BitVec.getLsbD_rotateRight, cond_eq_ite, decide_eq_true_eq]
  rw [Nat.mod_eq_of_lt (show 2 * i < 32 by omega)]
  split
  · rw [if_neg (by omega)]
    have : 32 - 2 * i + j < 32 := by omega
    simp [this]
    try (congr 1; omega)
  · simp only [hj, decide_true, Bool.true_and]
    rw [if_pos (by omega)]
    try (congr 1; omega)

theorem find_congr {p q : Nat → Bool} : ∀ {l : List Nat}, (∀ i ∈ l, p i = q i) → l.find? p = l.find? q
  | [], _ => rfl
  | a :: l, h => by
    rw [List.find?_cons, List.find?_cons, h a (by simp), find_congr (fun i hi => h i (List.mem_cons_of_mem a hi))]

/-- What `_imm` finds. -/
def found (w : Word) : Option Nat := (List.range 16).find? (fun i => (w.rotateRight (2 * i)).ult 256)

theorem imm_eq (val : Int) : imm val = match found (.ofInt 32 val) with
    | some i => .ok (((BitVec.ofInt 32 val).rotateRight (2 * i)).setWidth 4, i)
    | none => .error .valueError := by
  have e : (List.range 16).find? (fun i => (rol (.ofInt 32 val) (2 * i)).ult 256) = found (.ofInt 32 val) := by
    unfold found
    exact find_congr (fun i hi => by rw [rol_eq _ (by have := List.mem_range.mp hi; omega)])
  simp only [imm, e]
  cases h : found (.ofInt 32 val) with
  | none => rfl
  | some i =>
    have hi : i < 16 := List.mem_range.mp (List.mem_of_find?_eq_some h)
    simp only [rol_eq _ (show 2 * i < 32 by omega)]

/-- Every word that `_imm` accepts, one by one. -/
theorem all_words : ∀ i : Fin 16, ∀ r : Fin 256, (match found (wordAt i r) with
    | some k => (decide (immValue (.ofNat 8 k) (((wordAt i r).rotateRight (2 * k)).setWidth 4) = wordAt i r) == decide (wordAt i r = 0)) &&
        (decide (immValue ((((wordAt i r).rotateRight (2 * k)).setWidth 4).setWidth 8) (.ofNat 4 k) = wordAt i r) == decide ((wordAt i r).toNat < 16)) &&
        decide (immValue (.ofNat 8 r) (.ofNat 4 (16 - i)) = wordAt i r)
    | none => false) = true := by
  decide +kernel

theorem found_some {w : Word} {k : Nat} (h : found w = some k) :
    (immValue (.ofNat 8 k) ((w.rotateRight (2 * k)).setWidth 4) = w ↔ w = 0) ∧
    (immValue (((w.rotateRight (2 * k)).setWidth 4).setWidth 8) (.ofNat 4 k) = w ↔ w.toNat < 16) ∧
    ∃ i r, immValue i r = w := by
  have hk : k < 16 := List.mem_range.mp (List.mem_of_find?_eq_some h)
  obtain ⟨r, hr, hw⟩ := at_of_lt hk (by simpa using List.find?_some h)
  have a := all_words ⟨k, hk⟩ ⟨r, hr⟩
  simp only [← hw, h, Bool.and_eq_true, beq_iff_eq, decide_eq_decide, decide_eq_true_eq] at a
  exact ⟨a.1.1, a.1.2, _, _, a.2⟩

theorem found_none {w : Word} (h : found w = none) (i : BitVec 8) (r : BitVec 4) : immValue i r ≠ w := by
  intro e
  have e' : w = wordAt ((16 - r.toNat) % 16) i.toNat := by
    rw [← e]
    have : ∀ r : Fin 16, ∀ i : Fin 256, immValue (.ofNat 8 i) (.ofNat 4 r) = wordAt ((16 - r.val) % 16) i.val := by decide +kernel
    have := this ⟨r.toNat, r.isLt⟩ ⟨i.toNat, i.isLt⟩
    simpa using this
  have a := all_words ⟨(16 - r.toNat) % 16, Nat.mod_lt _ (by omega)⟩ ⟨i.toNat, i.isLt⟩
  simp only [← e', h] at a
  exact absurd a (by simp)

/-- C69: the value of the immediate argument is refused exactly when no immediate operand stands for it (as a 32-bit word). -/
theorem C69_raises (val : Int) : imm val = .error .valueError ↔ ¬ ∃ i r, immValue i r = BitVec.ofInt 32 val := by
  rw [imm_eq]
  cases h : found (.ofInt 32 val) with
  | none => exact ⟨fun _ ⟨i, r, e⟩ => found_none h i r e, fun _ => rfl⟩
  | some k => exact ⟨fun e => by simp at e, fun n => absurd (found_some h).2.2 n⟩

/-- C69 for the data builders (`mov`, `add`, `and_`, `or_`, `eor`): without a third register they refuse exactly the immediates that cannot be expressed, keep the other arguments,
and the operand stands for the immediate exactly when that is zero. -/
theorem C69_data_immediate_partial (op : DataOp) (ra rb shift im s : Int) (cond : Cond) :
    ((∃ e, data op ra rb none shift im s cond = .error e) ↔ ¬ ∃ i r, immValue i r = BitVec.ofInt 32 im) ∧
    ∀ x, data op ra rb none shift im s cond = .ok x →
      ∃ i r, x = ⟨.data op (.ofInt 4 ra) (.ofInt 4 rb) (.imm i r) (.ofInt 1 s), cond⟩ ∧
        (immValue i r = BitVec.ofInt 32 im ↔ BitVec.ofInt 32 im = 0) := by
  have hr := C69_raises im
  have he := imm_eq im
  simp only [data]
  cases h : found (.ofInt 32 im) with
  | none =>
    rw [h] at he
    simp only at he
    rw [he] at hr ⊢
    exact ⟨⟨fun _ => hr.mp rfl, fun _ => ⟨_, rfl⟩⟩, fun x hx => by simp at hx⟩
  | some k =>
    rw [h] at he
    simp only at he
    rw [he] at hr ⊢
    refine ⟨⟨fun ⟨e, h'⟩ => by simp at h', fun n => absurd (found_some h).2.2 n⟩, fun x hx => ?_⟩
    simp only [Except.ok.injEq] at hx
    exact ⟨_, _, hx.symm, (found_some h).1⟩

/-- C69 for `ldr` and `str`: the same, and the operand stands for the immediate exactly when that is below 16. -/
theorem C69_ldst_immediate_partial (load : Bool) (ra rb shift im : Int) (cond : Cond) :
    ((∃ e, ldst load ra rb none shift im cond = .error e) ↔ ¬ ∃ i r, immValue i r = BitVec.ofInt 32 im) ∧
    ∀ x, ldst load ra rb none shift im cond = .ok x →
      ∃ i r, x = ⟨.ldst load (.ofInt 4 ra) (.ofInt 4 rb) (.imm i r), cond⟩ ∧
        (immValue i r = BitVec.ofInt 32 im ↔ (BitVec.ofInt 32 im).toNat < 16) := by
  have hr := C69_raises im
  have he := imm_eq im
  simp only [ldst]
  cases h : found (.ofInt 32 im) with
  | none =>
    rw [h] at he
    simp only at he
    rw [he] at hr ⊢
    exact ⟨⟨fun _ => hr.mp rfl, fun _ => ⟨_, rfl⟩⟩, fun x hx => by simp at hx⟩
  | some k =>
    rw [h] at he
    simp only at he
    rw [he] at hr ⊢
    refine ⟨⟨fun ⟨e, h'⟩ => by simp at h', fun n => absurd (found_some h).2.2 n⟩, fun x hx => ?_⟩
    simp only [Except.ok.injEq] at hx
    exact ⟨_, _, hx.symm, (found_some h).2.1⟩

/-- C69 for the register operands, in the builders' own names. -/
theorem C69_registers (ra rb rc shift im s : Int) (cond : Cond) :
    [mov, add, and_, or_, eor].map (fun f => f ra rb (some rc) shift im s cond) =
      [.MOV, .ADD, .AND, .ORR, .EOR].map (fun op => .ok ⟨.data op (.ofInt 4 ra) (.ofInt 4 rb) (.reg (.ofInt 4 rc) (.ofInt 8 shift)) (.ofInt 1 s), cond⟩) ∧
    [ldr, str].map (fun f => f ra rb (some rc) shift im cond) =
      [true, false].map (fun ld => .ok ⟨.ldst ld (.ofInt 4 ra) (.ofInt 4 rb) (.reg (.ofInt 4 rc) (.ofInt 8 shift)), cond⟩) := ⟨rfl, rfl⟩

/-- C69 is violated: `mov(R1, R0, imm=1)` does not move 1, and `ldr(R1, R0, imm=16)` does not add 16; both values can be expressed. -/
theorem C69_violated_immediate :
    (∃ x i r, mov 1 0 none 0 1 0 .Always = .ok x ∧ x.inst = .data .MOV 1 0 (.imm i r) 0 ∧ immValue i r = 0 ∧ immValue 1 0 = 1) ∧
    (∃ x i r, ldr 1 0 none 0 16 .Always = .ok x ∧ x.inst = .ldst true 1 0 (.imm i r) ∧ immValue i r = 0 ∧ immValue 16 0 = 16) :=
  ⟨⟨⟨.data .MOV 1 0 (.imm 0 1) 0, .Always⟩, 0, 1, by decide +kernel, rfl, by decide +kernel, by decide +kernel⟩,
   ⟨⟨.ldst true 1 0 (.imm 0 0), .Always⟩, 0, 0, by decide +kernel, rfl, by decide +kernel, by decide +kernel⟩⟩

/-- `0x101` cannot be expressed and is refused. -/
example : add 1 2 none 0 0x101 0 .Always = .error .valueError := by decide +kernel

/-! ## the words -/

theorem option_congr (env : BfEnv) (k : Key) (v v' : Val) : ∀ fs : Fields, (∀ t, (k, t) ∈ fs.toList → bfEncode env false t v = bfEncode env false t v') →
    bfOption env false fs k v = bfOption env false fs k v'
  | .nil, _ => by simp only [bfOption]
  | .cons k' t fs, h => by
    simp only [bfOption]
    split
    next e => exact h t (by rw [e]; simp [Fields.toList])
    next e => exact option_congr env k v v' fs (fun t' ht => h t' (by simp [Fields.toList, ht]))

theorem sum_congr (env : BfEnv) (c : Nat) (fs : Fields) (k : Key) (v v' : Val)
    (h : ∀ t, (k, t) ∈ fs.toList → bfEncode env false t v = bfEncode env false t v') :
    bfEncode env false (.sum c fs) (.sum k v) = bfEncode env false (.sum c fs) (.sum k v') := by
  simp only [bfEncode, option_congr env k v v' fs h]

theorem swap_fields (a b : Nat) : (0 ||| ((a <<< 16) <<< 0)) ||| ((b <<< 12) <<< (0 + 4)) = (0 ||| ((b <<< 16) <<< 0)) ||| ((a <<< 12) <<< (0 + 4)) := by
  rw [Nat.zero_or, Nat.zero_or, Nat.shiftLeft_zero, Nat.shiftLeft_zero, ← Nat.shiftLeft_add, ← Nat.shiftLeft_add, Nat.or_comm]

theorem reg_enc (c : Nat) (x : BitVec 4) : bfEncode bf false (.bv c 4) (bvV x) = .ok (x.toNat <<< bf.off c) := by
  have := x.isLt
  simp [bfEncode, bvV, BV.ofNat, Nat.mod_eq_of_lt this]

theorem swap_data (o : Orders) (c : Nat) (ra rb : BitVec 4) (x : Val) (s : Val) :
    bfEncode bf false (dataT o c) (.prod [bvV ra, bvV rb, x, s]) = bfEncode bf false (dataT o c) (.prod [bvV rb, bvV ra, x, s]) := by
  have hw := swap_fields ra.toNat rb.toNat
  have h6 : bf.off 6 = 16 := rfl
  have h7 : bf.off 7 = 12 := rfl
  simp only [dataT]
  rw [bfEncode, bfEncode]
  simp only [Bool.false_eq_true, if_false]
  rw [bfLeft, bfLeft, reg_enc, reg_enc]
  simp only [bfSize]
  rw [bfLeft, bfLeft, reg_enc, reg_enc]
  simp only [bfSize, h6, h7, hw]

theorem swap_ldst (o : Orders) (c : Nat) (ra rb : BitVec 4) (x : Val) :
    bfEncode bf false (ldstT o c) (.prod [bvV ra, bvV rb, x]) = bfEncode bf false (ldstT o c) (.prod [bvV rb, bvV ra, x]) := by
  have hw := swap_fields ra.toNat rb.toNat
  have h6 : bf.off 6 = 16 := rfl
  have h7 : bf.off 7 = 12 := rfl
  simp only [ldstT]
  rw [bfEncode, bfEncode]
  simp only [Bool.false_eq_true, if_false]
  rw [bfLeft, bfLeft, reg_enc, reg_enc]
  simp only [bfSize]
  rw [bfLeft, bfLeft, reg_enc, reg_enc]
  simp only [bfSize, h6, h7, hw]

theorem inst_congr (o : Orders) (x y : Base) (c : Cond) (h : bfEncode bf false (.sum 15 o.bases) x.val = bfEncode bf false (.sum 15 o.bases) y.val) :
    encode o ⟨x, c⟩ = encode o ⟨y, c⟩ := by
  simp only [encode, instT, Inst.val]
  rw [bfEncode, bfEncode]
  simp only [Bool.false_eq_true, if_false]
  rw [bfLeft, bfLeft, h]

/-- C69 is violated: the words do not tell the two registers apart.  Exchanging `ra` and `rb` never changes the word, in whatever order the options of the unions are numbered. -/
theorem C69_violated_words (o : Orders) (ok : o.Ok) (ra rb : BitVec 4) (rc : Operand) (cond : Cond) :
    (∀ op s, encode o ⟨.data op ra rb rc s, cond⟩ = encode o ⟨.data op rb ra rc s, cond⟩) ∧
    (∀ load, encode o ⟨.ldst load ra rb rc, cond⟩ = encode o ⟨.ldst load rb ra rc, cond⟩) := by
  constructor
  · intro op s
    apply inst_congr
    simp only [Base.val]
    apply sum_congr
    intro t ht
    have h0 := ok.bases.mem_iff.mp ht
    simp only [baseOpts, List.mem_cons, Prod.mk.injEq, List.not_mem_nil, or_false] at h0
    obtain ⟨_, rfl⟩ | ⟨h1, _⟩ | ⟨h1, _⟩ := h0
    · apply sum_congr
      intro t' ht'
      have h2 := ok.datas.mem_iff.mp ht'
      simp only [dataOpts, List.mem_map, Prod.mk.injEq] at h2
      obtain ⟨i, _, _, rfl⟩ := h2
      exact swap_data o _ ra rb _ _
    · exact absurd h1 (by decide)
    · exact absurd h1 (by decide)
  · intro load
    apply inst_congr
    simp only [Base.val]
    apply sum_congr
    intro t ht
    have h0 := ok.bases.mem_iff.mp ht
    simp only [baseOpts, List.mem_cons, Prod.mk.injEq, List.not_mem_nil, or_false] at h0
    obtain ⟨h1, _⟩ | ⟨_, rfl⟩ | ⟨h1, _⟩ := h0
    · exact absurd h1 (by decide)
    · apply sum_congr
      intro t' ht'
      have h2 := ok.ldsts.mem_iff.mp ht'
      simp only [ldstOpts, List.mem_cons, Prod.mk.injEq, List.not_mem_nil, or_false] at h2
      obtain ⟨_, rfl⟩ | ⟨_, rfl⟩ := h2 <;> exact swap_ldst o _ ra rb _
    · exact absurd h1 (by decide)

theorem option_find (env : BfEnv) (k : Key) (v : Val) : ∀ fs : Fields, (∃ t, (k, t) ∈ fs.toList) →
    ∃ t, (k, t) ∈ fs.toList ∧ bfOption env false fs k v = bfEncode env false t v
  | .nil, h => by simp [Fields.toList] at h
  | .cons k' t fs, h => by
    by_cases e : k = k'
    · exact ⟨t, by rw [e]; simp [Fields.toList], by simp only [bfOption, if_pos e]⟩
    · obtain ⟨t0, h0⟩ := h
      simp only [Fields.toList, List.mem_cons, Prod.mk.injEq, e, false_and, false_or] at h0
      obtain ⟨t', ht, h'⟩ := option_find env k v fs ⟨t0, h0⟩
      exact ⟨t', by simp [Fields.toList, ht], by simp only [bfOption, if_neg e, h']⟩

theorem b_word (offset : BitVec 24) (l : BitVec 1) : ∃ w, bfEncode bf false bT (.prod [bvV offset, bvV l, bvV (1 : BitVec 1)]) = .ok w ∧ 2 ^ 50 ≤ w := by
  refine ⟨_, by simp [bT, bfEncode, bfLeft, bvV, BV.ofNat, bf, bfSize]; rfl, ?_⟩
  exact le_trans (by decide) Nat.right_le_or

/-- C69 is violated: the word of a branch (to any place, with or without link, under any condition) does not fit in 32 bits. -/
theorem C69_violated_branch (o : Orders) (ok : o.Ok) (offset link : Int) (cond : Cond) :
    ∃ w, encode o (b offset link cond) = .ok w ∧ 2 ^ 32 ≤ w := by
  have mem : ((2 : Key), bT) ∈ o.bases.toList := ok.bases.mem_iff.mpr (by simp [baseOpts])
  obtain ⟨w, hw, hle⟩ := b_word (.ofInt 24 offset) (.ofInt 1 link)
  obtain ⟨t, ht, h⟩ := option_find bf 2 (.prod [bvV (.ofInt 24 offset : BitVec 24), bvV (.ofInt 1 link : BitVec 1), bvV (1 : BitVec 1)]) o.bases ⟨_, mem⟩
  have : t = bT := by
    have h0 := ok.bases.mem_iff.mp ht
    simp only [baseOpts, List.mem_cons, Prod.mk.injEq, List.not_mem_nil, or_false] at h0
    obtain ⟨h1, _⟩ | ⟨h1, _⟩ | ⟨_, h1⟩ := h0
    · exact absurd h1 (by decide)
    · exact absurd h1 (by decide)
    · exact h1
  rw [this, hw] at h
  obtain ⟨tag, htag⟩ : ∃ tag, bfInstkey bf 15 o.bases 2 = .ok tag := by
    simp only [bfInstkey, bf]
    cases hi : o.bases.toList.findIdx? (fun p => p.1 == 2) with
    | some i => exact ⟨i, rfl⟩
    | none => exact absurd (List.findIdx?_eq_none_iff.mp hi _ mem) (by simp)
  obtain ⟨w', hw', hle'⟩ : ∃ w', bfEncode bf false (.sum 15 o.bases) (b offset link cond).inst.val = .ok w' ∧ w ≤ w' := by
    refine ⟨_, by simp only [b, Base.val, bfEncode, htag, h]; rfl, ?_⟩
    simp only [Bool.false_eq_true, if_false]
    rw [Nat.shiftLeft_eq]
    refine le_trans (le_trans ?_ Nat.left_le_or) (Nat.le_mul_of_pos_right _ (Nat.two_pow_pos _))
    rw [Nat.shiftLeft_eq]
    exact Nat.le_mul_of_pos_right _ (Nat.two_pow_pos _)
  refine ⟨(0 ||| (w' <<< 0)) ||| ((cond.code <<< 28) <<< (0 + bfSize bf (.sum 15 o.bases))), ?_, ?_⟩
  · simp only [encode, instT, Inst.val]
    rw [bfEncode]
    simp only [Bool.false_eq_true, if_false]
    rw [bfLeft, hw']
    simp only [bfLeft, condT, bfEncode, b]
    rfl
  · refine le_trans ?_ Nat.left_le_or
    rw [Nat.zero_or, Nat.shiftLeft_zero]
    omega

/-! ## the words, exactly -/

theorem bv_enc (c : Nat) {w : Nat} (x : BitVec w) : bfEncode bf false (.bv c w) (bvV x) = .ok (2 ^ bf.off c * x.toNat) := by
  have := x.isLt
  simp [bfEncode, bvV, BV.ofNat, Nat.mod_eq_of_lt this, Nat.shiftLeft_eq, Nat.mul_comm]

theorem sum_word {c n : Nat} {fs : Fields} {opts : List (Key × Ty)} (perm : fs.toList.Perm opts) (hn : clog2 opts.length = n) (hl : opts.length ≤ 2 ^ n)
    {k : Key} {t : Ty} {v : Val} {w : Nat} (mem : (k, t) ∈ opts) (only : ∀ t', (k, t') ∈ opts → t' = t) (hw : bfEncode bf false t v = .ok w) :
    bfEncode bf false (.sum c fs) (.sum k v) = .ok (2 ^ bf.off c * (2 ^ n * w + place fs k)) := by
  have mem' := perm.mem_iff.mpr mem
  obtain ⟨t', ht, h⟩ := option_find bf k v fs ⟨_, mem'⟩
  rw [only t' (perm.mem_iff.mp ht), hw] at h
  have hlt : place fs k < fs.toList.length := List.findIdx_lt_length_of_exists ⟨_, mem', by simp⟩
  have htag : bfInstkey bf c fs k = .ok (place fs k) := by
    have : fs.toList.findIdx? (fun p => p.1 == k) = some (place fs k) := by
      rw [List.findIdx?_eq_some_iff_findIdx_eq]; exact ⟨hlt, rfl⟩
    simp only [bfInstkey, bf, this]
  have hs : bfSumsize bf c fs = n := by simp only [bfSumsize, bf, perm.length_eq, hn]
  have hb : place fs k < 2 ^ n := lt_of_lt_of_le hlt (perm.length_eq ▸ hl)
  simp only [bfEncode, htag, h, hs, Bool.false_eq_true, if_false]
  rw [← Nat.shiftLeft_add_eq_or_of_lt hb, Nat.shiftLeft_eq, Nat.shiftLeft_eq, Nat.mul_comm, Nat.mul_comm w]

theorem maxSize_le {fs : Fields} {m : Nat} (h : ∀ p ∈ fs.toList, bfSize bf p.2 ≤ m) : bfMaxSize bf fs ≤ m := by
  match fs with
  | .nil => simp [bfMaxSize]
  | .cons k t fs =>
    simp only [Fields.toList, List.mem_cons, forall_eq_or_imp] at h
    simp only [bfMaxSize]
    exact Nat.max_le.mpr ⟨h.1, maxSize_le h.2⟩

theorem le_maxSize {fs : Fields} {p : Key × Ty} (h : p ∈ fs.toList) : bfSize bf p.2 ≤ bfMaxSize bf fs := by
  match fs with
  | .nil => simp [Fields.toList] at h
  | .cons k t fs =>
    simp only [Fields.toList, List.mem_cons] at h
    simp only [bfMaxSize]
    rcases h with rfl | h
    · exact Nat.le_max_left _ _
    · exact le_trans (le_maxSize h) (Nat.le_max_right _ _)

theorem sum_size {c n m : Nat} {fs : Fields} {opts : List (Key × Ty)} (perm : fs.toList.Perm opts) (hn : clog2 opts.length = n)
    (hm : ∀ p ∈ opts, bfSize bf p.2 ≤ m) (he : ∃ p ∈ opts, bfSize bf p.2 = m) : bfSize bf (.sum c fs) = m + n := by
  have hs : bfSumsize bf c fs = n := by simp only [bfSumsize, bf, perm.length_eq, hn]
  obtain ⟨p, hp, rfl⟩ := he
  have h1 := maxSize_le (fs := fs) (m := bfSize bf p.2) (fun q hq => hm q (perm.mem_iff.mp hq))
  have h2 := le_maxSize (perm.mem_iff.mpr hp)
  simp only [bfSize, hs]
  omega

theorem operand_size (o : Orders) (ok : o.Ok) : bfSize bf (operandT o) = 13 :=
  sum_size (m := 12) (n := 1) ok.operands (by decide +kernel) (by simp [operandOpts, regOperandT, immOperandT, bfSize, bfSizes])
    ⟨_, List.mem_cons_self, by simp [regOperandT, bfSize, bfSizes]⟩

theorem dataT_size (o : Orders) (ok : o.Ok) (c : Nat) : bfSize bf (dataT o c) = 22 := by
  simp only [dataT, bfSize, bfSizes, operand_size o ok]

theorem ldstT_size (o : Orders) (ok : o.Ok) (c : Nat) : bfSize bf (ldstT o c) = 21 := by
  simp only [ldstT, bfSize, bfSizes, operand_size o ok]

theorem dataOpts_length (o : Orders) : (dataOpts o).length = 16 := by simp [dataOpts]

theorem base_size (o : Orders) (ok : o.Ok) : bfSize bf (.sum 15 o.bases) = 28 := by
  have hd : bfSize bf (.sum 9 o.datas) = 22 + 4 :=
    sum_size ok.datas (by rw [dataOpts_length]; decide +kernel) (by simp [dataOpts, dataT_size o ok]) ⟨(0, dataT o 30), by simp [dataOpts], dataT_size o ok _⟩
  have hl : bfSize bf (.sum 10 o.ldsts) = 21 + 1 :=
    sum_size ok.ldsts (show clog2 2 = 1 by decide +kernel) (by simp [ldstOpts, ldstT_size o ok]) ⟨(0, ldstT o 46), by simp [ldstOpts], ldstT_size o ok _⟩
  have hb : bfSize bf bT = 26 := by simp [bT, bfSize, bfSizes]
  exact sum_size (m := 26) (n := 2) ok.bases (show clog2 3 = 2 by decide +kernel) (by simp [baseOpts, hd, hl, hb]) ⟨(2, bT), by simp [baseOpts], hb⟩

theorem or_add (a b n : Nat) (h : a < 2 ^ n) : a ||| 2 ^ n * b = a + 2 ^ n * b := by
  rw [Nat.or_comm, Nat.mul_comm, ← Nat.shiftLeft_eq, ← Nat.shiftLeft_add_eq_or_of_lt h, Nat.add_comm]

theorem shl (a m n k : Nat) (h : m + n = k) : (2 ^ m * a) <<< n = 2 ^ k * a := by
  subst h
  rw [Nat.shiftLeft_eq, Nat.pow_add]
  ring

theorem operand_enc (o : Orders) (ok : o.Ok) (x : Operand) : ∃ w, bfEncode bf false (operandT o) x.val = .ok w ∧ w <<< 8 = operandWord o x := by
  cases x with
  | reg rc shift =>
    refine ⟨_, sum_word (n := 1) (w := rc.toNat + 2 ^ 8 * shift.toNat) ok.operands (by decide +kernel) (by decide +kernel) (t := regOperandT) (by simp [operandOpts]) (by simp [operandOpts]) ?_,
      shl _ _ _ _ rfl⟩
    have := rc.isLt
    rw [← or_add _ _ 8 (show rc.toNat < 2 ^ 8 by omega), ← shl shift.toNat 4 4 8 rfl]
    rw [regOperandT, bfEncode]
    simp only [Bool.false_eq_true, if_false]
    rw [bfLeft, bv_enc]
    simp only [bfSize]
    rw [bfLeft, bv_enc, show bf.off 3 = 0 from rfl, show bf.off 4 = 4 from rfl, show bf.off 20 = 0 from rfl]
    simp only [bfLeft, Nat.shiftLeft_zero, Nat.zero_or, Nat.pow_zero, Nat.one_mul, Nat.zero_add]
  | imm i rotate =>
    refine ⟨_, sum_word (n := 1) (w := i.toNat + 2 ^ 16 * rotate.toNat) ok.operands (by decide +kernel) (by decide +kernel) (t := immOperandT) (by simp [operandOpts]) (by simp [operandOpts]) ?_,
      shl _ _ _ _ rfl⟩
    have := i.isLt
    rw [← or_add _ _ 16 (show i.toNat < 2 ^ 16 by omega), ← shl rotate.toNat 8 8 16 rfl]
    rw [immOperandT, bfEncode]
    simp only [Bool.false_eq_true, if_false]
    rw [bfLeft, bv_enc]
    simp only [bfSize]
    rw [bfLeft, bv_enc, show bf.off 1 = 0 from rfl, show bf.off 2 = 8 from rfl, show bf.off 21 = 0 from rfl]
    simp only [bfLeft, Nat.shiftLeft_zero, Nat.zero_or, Nat.pow_zero, Nat.one_mul, Nat.zero_add]

theorem key_eq (op : DataOp) : op.key = operations.idxOf op := by cases op <;> decide +kernel

theorem code_eq (c : Cond) : c.code = conditions.idxOf c := by cases c <;> decide +kernel

theorem off_big {c : Nat} (h : 16 ≤ c) : bf.off c = 0 := by
  simp only [bf]
  repeat rw [if_neg (by omega)]

theorem data_enc (o : Orders) (ok : o.Ok) (c : Nat) (hc : 16 ≤ c) (ra rb : BitVec 4) (rc : Operand) (s : BitVec 1) :
    bfEncode bf false (dataT o c) (.prod [bvV ra, bvV rb, rc.val, bvV s]) =
      .ok (2 ^ 16 * ra.toNat ||| 2 ^ 16 * rb.toNat ||| operandWord o rc ||| 2 ^ 41 * s.toNat) := by
  obtain ⟨w, hw, he⟩ := operand_enc o ok rc
  rw [← shl rb.toNat 12 4 16 rfl, ← shl s.toNat 20 21 41 rfl, ← he]
  rw [dataT, bfEncode]
  simp only [Bool.false_eq_true, if_false]
  rw [bfLeft, bv_enc]
  simp only [bfSize]
  rw [bfLeft, bv_enc]
  simp only [bfSize]
  rw [bfLeft, hw]
  simp only [operand_size o ok]
  rw [bfLeft, bv_enc, off_big hc, show bf.off 6 = 16 from rfl, show bf.off 7 = 12 from rfl, show bf.off 8 = 20 from rfl]
  simp only [bfLeft, Nat.shiftLeft_zero, Nat.zero_or, Nat.zero_add]

theorem ldst_enc (o : Orders) (ok : o.Ok) (c : Nat) (hc : 16 ≤ c) (ra rb : BitVec 4) (rc : Operand) :
    bfEncode bf false (ldstT o c) (.prod [bvV ra, bvV rb, rc.val]) = .ok (2 ^ 16 * ra.toNat ||| 2 ^ 16 * rb.toNat ||| operandWord o rc) := by
  obtain ⟨w, hw, he⟩ := operand_enc o ok rc
  rw [← shl rb.toNat 12 4 16 rfl, ← he]
  rw [ldstT, bfEncode]
  simp only [Bool.false_eq_true, if_false]
  rw [bfLeft, bv_enc]
  simp only [bfSize]
  rw [bfLeft, bv_enc]
  simp only [bfSize]
  rw [bfLeft, hw, off_big hc, show bf.off 6 = 16 from rfl, show bf.off 7 = 12 from rfl]
  simp only [bfLeft, Nat.shiftLeft_zero, Nat.zero_or, Nat.zero_add]

theorem b_enc (offset : BitVec 24) (l i : BitVec 1) :
    bfEncode bf false bT (.prod [bvV offset, bvV l, bvV i]) = .ok (offset.toNat + 2 ^ 48 * l.toNat + 2 ^ 50 * i.toNat) := by
  have h1 := offset.isLt
  have h2 := l.isLt
  rw [← or_add _ i.toNat 50 (by omega), ← or_add _ l.toNat 48 (by omega), ← shl l.toNat 24 24 48 rfl, ← shl i.toNat 25 25 50 rfl]
  rw [bT, bfEncode]
  simp only [Bool.false_eq_true, if_false]
  rw [bfLeft, bv_enc]
  simp only [bfSize]
  rw [bfLeft, bv_enc]
  simp only [bfSize]
  rw [bfLeft, bv_enc, show bf.off 50 = 0 from rfl, show bf.off 11 = 0 from rfl, show bf.off 12 = 24 from rfl, show bf.off 13 = 25 from rfl]
  simp only [bfLeft, Nat.shiftLeft_zero, Nat.zero_or, Nat.zero_add, Nat.pow_zero, Nat.one_mul]

theorem base_enc (o : Orders) (ok : o.Ok) (x : Base) : bfEncode bf false (.sum 15 o.bases) x.val = .ok (baseWord o x) := by
  cases x with
  | data op ra rb rc s =>
    have h1 := sum_word (c := 9) (n := 4) (k := op.key) (t := dataT o (30 + op.key)) ok.datas (by rw [dataOpts_length]; decide +kernel) (by rw [dataOpts_length]; decide)
      (by cases op <;> simp [dataOpts, DataOp.key]) (by cases op <;> simp [dataOpts, DataOp.key]) (data_enc o ok (30 + op.key) (Nat.le_trans (by decide) (Nat.le_add_right 30 _)) ra rb rc s)
    have h2 := sum_word (c := 15) (n := 2) (k := 0) (t := .sum 9 o.datas) ok.bases (show clog2 3 = 2 by decide +kernel) (show 3 ≤ 4 by decide) (by simp [baseOpts]) (by simp [baseOpts]) h1
    rw [Base.val, h2, key_eq]
    rfl
  | ldst load ra rb rc =>
    have h1 := sum_word (c := 10) (n := 1) (k := load.toNat) (t := ldstT o (46 + load.toNat)) ok.ldsts (show clog2 2 = 1 by decide +kernel) (show 2 ≤ 2 by decide)
      (by cases load <;> simp [ldstOpts]) (by cases load <;> simp [ldstOpts]) (ldst_enc o ok (46 + load.toNat) (by omega) ra rb rc)
    have h2 := sum_word (c := 15) (n := 2) (k := 1) (t := .sum 10 o.ldsts) ok.bases (show clog2 3 = 2 by decide +kernel) (show 3 ≤ 4 by decide) (by simp [baseOpts]) (by simp [baseOpts]) h1
    rw [Base.val, h2]
    cases load <;> rfl
  | b offset l i =>
    have h2 := sum_word (c := 15) (n := 2) (k := 2) (t := bT) ok.bases (show clog2 3 = 2 by decide +kernel) (show 3 ≤ 4 by decide) (by simp [baseOpts]) (by simp [baseOpts]) (b_enc offset l i)
    rw [Base.val, h2]
    rfl

/-- C69: the word of every instruction, for any order of the options; `encode` never fails on an instruction. -/
theorem C69_words (o : Orders) (ok : o.Ok) (i : Inst) : encode o i = .ok (instWord o i) := by
  rw [encode, instT, Inst.val, bfEncode]
  simp only [Bool.false_eq_true, if_false]
  rw [bfLeft, base_enc o ok]
  simp only [base_size o ok]
  rw [instWord, ← code_eq, ← shl i.cond.code 28 28 56 rfl, off_big (by omega)]
  rw [bfLeft]
  simp only [condT, bfEncode, bfLeft, show bf.off 14 = 28 from rfl, Nat.shiftLeft_zero, Nat.zero_or, Nat.zero_add]
  rw [if_neg (by omega), Nat.shiftLeft_eq, Nat.mul_comm]
  rfl

/-- Some order of the options, and two words (the registers exchanged) that are the same. -/
def someOrders : Orders :=
  let fields (l : List (Key × Ty)) : Fields := l.foldr (fun p fs => .cons p.1 p.2 fs) .nil
  let o₁ : Orders := ⟨fields operandOpts, .nil, .nil, .nil⟩
  let o₂ : Orders := ⟨fields operandOpts, fields (dataOpts o₁), fields (ldstOpts o₁), .nil⟩
  { o₂ with bases := fields (baseOpts o₂) }

theorem someOrders_ok : someOrders.Ok := by
  refine ⟨?_, ?_, ?_, ?_⟩ <;> exact List.Perm.of_eq rfl

example : ∃ w, encode someOrders ⟨.data .ADD 1 2 (.reg 3 0) 0, .Always⟩ = .ok w ∧ encode someOrders ⟨.data .ADD 2 1 (.reg 3 0) 0, .Always⟩ = .ok w := ⟨_, rfl, by decide +kernel⟩

end Peak.Arm
