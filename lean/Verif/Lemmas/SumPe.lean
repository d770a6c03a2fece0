import Verif.Spec.SumPe
import Verif.Lemmas.ValueForms
import Verif.Props.IRMapper
/-!
# The PEs of `examples/sum_pe` and `examples/tagged_pe` compute `SPe.peFn`
-/

namespace Peak.SPe
open Peak Peak.Spec

theorem op_wf : WF opT := by simp [opT, memA, WF, autos]
theorem bitOp_wf : WF bitOpT := by
  refine ⟨by simp [Fields.toList], op_wf, ?_, trivial⟩
  simp [WF]
theorem arithOp_wf : WF arithOpT := by
  refine ⟨by simp [Fields.toList], op_wf, ?_, trivial⟩
  simp [WF]
theorem inst_wf (tagged : Bool) : WF (instT tagged) := by
  cases tagged
  · exact ⟨by simp [Fields.toList], by simp [Fields.toList, kBit, kArith], bitOp_wf, arithOp_wf, trivial⟩
  · exact ⟨by simp [Fields.toList], by simp [Fields.toList, kBit, kArith], arithOp_wf, bitOp_wf, trivial⟩

theorem op_width : width opT = 2 := by decide +kernel
theorem bitOp_width : width bitOpT = 3 := by decide +kernel
theorem arithOp_width : width arithOpT = 10 := by decide +kernel
theorem inst_width (tagged : Bool) : width (instT tagged) = 11 := by cases tagged <;> decide +kernel

/-- The tag of the arithmetic option. -/
def arithTag (tagged : Bool) : Nat := if tagged then 0 else 1

/-- The option of a union, read from a number. -/
theorem option_match (P : Process) {c : Nat} {fs : Fields} {n : Nat} (hw : WF (.sum c fs)) (hn : n < 2 ^ width (.sum c fs))
    {k : Key} {t : Ty} (hk : (k, t) ∈ fs.toList) :
    (mkAV (.sum c fs) n).getOption P.asm k =
      .ok (decide (n % 2 ^ tagBits fs.toList.length = optionIndex fs k), mkAV t (n / 2 ^ tagBits fs.toList.length % 2 ^ width t)) := by
  obtain ⟨i, hi⟩ := List.getElem?_of_mem hk
  obtain ⟨o, ho, hg⟩ := P.good hw
  obtain ⟨tg, ht, hgt⟩ := hg.tag
  have hle := width_le_maxWidth fs i k t hi
  have hs := sub_spec P hg (wfs_mem fs hw.2.2 i k t hi) (b := BV.ofNat (width (.sum c fs)) n)
    (k := k) (off := tagBits fs.toList.length) rfl (lookup_of_get hw.2.1 hi) (sum_layout hw hi) (by simp only [width]; omega)
  have hkj : k ∈ fs.toList.map (·.1) := List.mem_map_of_mem (f := (·.1)) hk
  rw [ofNat_val_of_lt hn] at hs
  have hsl := tag_slice (tw := tagBits fs.toList.length) (w := width (.sum c fs)) (n := n / 2 ^ tagBits fs.toList.length) (tag := n % 2 ^ tagBits fs.toList.length)
    (Nat.mod_lt _ (Nat.two_pow_pos _)) (by simp only [width]; omega) (BV.ofNat (width (.sum c fs)) n) rfl
    (by rw [ofNat_val_of_lt hn]; exact (Nat.mod_add_div _ _).symm)
  rw [mkAV_mod, show mkAV (.sum c fs) n = .adt (.sum c fs) (BV.ofNat (width (.sum c fs)) n) from rfl]
  simp only [AV.getOption, ho, hs, SubObj.tagIdx, AsmObj.sub, ht, AsmObj.assembleTag, hgt.asm_ok k hkj, hgt.width, Nat.zero_add, hsl]
  have hi' := lt_tagBits (optionIndex_lt fs k hkj)
  rw [show BV.ofNat (tagBits fs.toList.length) (n % 2 ^ tagBits fs.toList.length) = BV.ofNat (tagBits fs.toList.length) n by
    apply BV.ext <;> simp [BV.ofNat_size, BV.ofNat_val]]
  simp only [Except.ok.injEq, Prod.mk.injEq, and_true, decide_eq_decide]
  constructor
  · intro h
    have := congrArg BV.val h
    rwa [BV.ofNat_val, BV.ofNat_val, Nat.mod_eq_of_lt hi'] at this
  · intro h
    apply BV.ext
    · simp [BV.ofNat_size]
    · rw [BV.ofNat_val, BV.ofNat_val, Nat.mod_eq_of_lt hi', h]

theorem inst_arith (P : Process) (tagged : Bool) {n : Nat} (hn : n < 2048) :
    (mkAV (instT tagged) n).getOption P.asm kArith = .ok (decide (n % 2 = arithTag tagged), mkAV arithOpT (n / 2 % 1024)) := by
  have hw := inst_width tagged
  have hwf := inst_wf tagged
  have ht : tagBits 2 = 1 := by decide
  cases tagged
  · have := option_match P (n := n) hwf (by show n < 2 ^ width (instT false); rw [hw]; omega) (k := kArith) (t := arithOpT) (by simp [Fields.toList])
    rw [arithOp_width] at this
    simpa [Fields.toList, ht, optionIndex, kArith, kBit, arithTag, instT] using this
  · have := option_match P (n := n) hwf (by show n < 2 ^ width (instT true); rw [hw]; omega) (k := kArith) (t := arithOpT) (by simp [Fields.toList])
    rw [arithOp_width] at this
    simpa [Fields.toList, ht, optionIndex, kArith, kBit, arithTag, instT] using this

theorem inst_bit (P : Process) (tagged : Bool) {n : Nat} (hn : n < 2048) :
    (mkAV (instT tagged) n).getOption P.asm kBit = .ok (decide (n % 2 = 1 - arithTag tagged), mkAV bitOpT (n / 2 % 8)) := by
  have hw := inst_width tagged
  have hwf := inst_wf tagged
  have ht : tagBits 2 = 1 := by decide
  cases tagged
  · have := option_match P (n := n) hwf (by show n < 2 ^ width (instT false); rw [hw]; omega) (k := kBit) (t := bitOpT) (by simp [Fields.toList])
    rw [bitOp_width] at this
    simpa [Fields.toList, ht, optionIndex, kArith, kBit, arithTag, instT] using this
  · have := option_match P (n := n) hwf (by show n < 2 ^ width (instT true); rw [hw]; omega) (k := kBit) (t := bitOpT) (by simp [Fields.toList])
    rw [bitOp_width] at this
    simpa [Fields.toList, ht, optionIndex, kArith, kBit, arithTag, instT] using this

/-- The two fields of a tuple of an `Op` and a vector. -/
theorem pair_get (P : Process) {c w n : Nat} (hw : WF (.prod c (.cons 0 opT (.cons 1 (.bv 0 w) .nil)))) (hn : n < 2 ^ (2 + w)) :
    (mkAV (.prod c (.cons 0 opT (.cons 1 (.bv 0 w) .nil))) n).get P.asm 0 = .ok (mkAV opT (n % 4)) ∧
    (mkAV (.prod c (.cons 0 opT (.cons 1 (.bv 0 w) .nil))) n).get P.asm 1 = .ok (.bits (BV.ofNat w (n / 4))) := by
  have hn' : n < 2 ^ width (.prod c (.cons 0 opT (.cons 1 (.bv 0 w) .nil))) := by
    simpa [width, sumWidths, op_width] using hn
  obtain ⟨m, h1, h2, h3⟩ := ValF.get_num P hw hn' (k := 0) (t := opT) (by simp [Fields.toList])
  obtain ⟨m', g1, g2, g3⟩ := ValF.get_num P hw hn' (k := 1) (t := .bv 0 w) (by simp [Fields.toList])
  have e := (h3 []).1
  have e' := (g3 []).1
  simp only [bitsAt, bitsAtF, op_width, opT, if_true] at e
  simp only [bitsAt, bitsAtF, op_width, width] at e'
  rw [← opT, op_width] at e
  rw [if_neg (by decide)] at e'
  simp only [if_true] at e'
  refine ⟨by rw [h2, ← e], ?_⟩
  rw [g2, ← e']
  simp only [mkAV, Except.ok.injEq, AV.bits.injEq]
  exact VF.ofNat_mod _ _

theorem isA_num (P : Process) (n : Nat) (hn : n < 4) : isA P.asm (mkAV opT n) = .ok (n == 1) := by
  obtain ⟨o, ho, hg⟩ := P.good op_wf
  have hh : opT.Has (.enum memA) := by simp [opT, Ty.Has]
  have hi : opT.isinst (.enum memA) = true := (isinst_iff _ _).2 hh
  have he : encode opT (.enum memA) = 1 := by decide +kernel
  simp only [mkAV, opT, isA]
  rw [← opT]
  simp only [AV.eq, ho, hi, if_true, hg.assemble op_wf hh, he]
  rw [BV.ofNat_val, BV.ofNat_val, op_width, Nat.mod_eq_of_lt (by omega : n < 2 ^ 2)]

/-- The call on any bits: `n` is the number in the instruction. -/
theorem call_num (P : Process) (tagged : Bool) {n a b c : Nat} {d : Bool} (hn : n < 2048) (ks : Key × Key × Key × Key × Key) :
    peCall P.asm [(ks.1, mkAV (instT tagged) n), (ks.2.1, .bits (BV.ofNat 8 a)), (ks.2.2.1, .bits (BV.ofNat 8 b)), (ks.2.2.2.1, .bits (BV.ofNat 8 c)), (ks.2.2.2.2, .bit d)] =
      .ok [b8 (word (decide (n % 2 = arithTag tagged)) (n / 2 % 4 == 1) (n / 8 % 2 != 0) (.ofNat 8 (n / 8)) (.ofNat 8 a) (.ofNat 8 b)), .bits (BV.ofNat 1 d.toNat)] := by
  have pa := pair_get P (c := 4) (w := 8) (n := n / 2 % 1024) arithOp_wf (by omega)
  have pb := pair_get P (c := 3) (w := 1) (n := n / 2 % 8) bitOp_wf (by omega)
  have m1 : n / 2 % 1024 % 4 = n / 2 % 4 := by omega
  have m2 : n / 2 % 8 % 4 = n / 2 % 4 := by omega
  have m3 : n / 2 % 1024 / 4 = n / 8 := by omega
  have m4 : n / 2 % 8 / 4 = n / 8 % 2 := by omega
  rw [m1, m3] at pa
  rw [m2, m4] at pb
  have hA := isA_num P (n / 2 % 4) (Nat.mod_lt _ (by decide))
  simp only [peCall, bind, Except.bind, inst_arith P tagged hn, inst_bit P tagged hn, arithOpT, bitOpT, pa.1, pa.2, pb.1, pb.2, hA, bitsOf]
  have w8e : ∀ x, w8 (BV.ofNat 8 x) = BitVec.ofNat 8 x := by
    intro x
    apply BitVec.eq_of_toNat_eq
    simp [w8, BV.ofNat_val]
  simp only [w8e, BV.ofNat_val, word]
  have : (n / 8 % 2 % 2 ^ 1 ≠ 0) ↔ (n / 8 % 2 != 0) = true := by simp
  congr 3
  simp only [this, decide_eq_true_eq]

/-! ## inputs -/

theorem leaf_shape {t : Ty} {r : RVal} (hl : VF.IsLeaf t) (h : RHas t r) : ∃ n, r = .leaf n ∧ n < 2 ^ width t := by
  rcases hl with ⟨c, w, rfl⟩ | ⟨c, rfl⟩ | ⟨c, ms, rfl⟩ <;> cases r <;> simp only [RHas] at h <;> exact ⟨_, rfl, h⟩

theorem pair_shape {c w : Nat} {r : RVal} (h : RHas (.prod c (.cons 0 opT (.cons 1 (.bv 0 w) .nil))) r) :
    ∃ op x, r = .prod [.leaf op, .leaf x] ∧ op < 4 ∧ x < 2 ^ w := by
  cases r with
  | leaf _ => simp [RHas] at h
  | sum _ _ => simp [RHas] at h
  | prod vs =>
    match vs, h with
    | [a, b], ⟨h1, h2, _⟩ =>
      obtain ⟨n, rfl, hn⟩ := leaf_shape (.inr (.inr ⟨_, _, rfl⟩)) h1
      obtain ⟨m, rfl, hm⟩ := leaf_shape (.inl ⟨_, _, rfl⟩) h2
      exact ⟨n, m, rfl, by have := op_width; unfold opT at this; rw [this] at hn; exact hn, hm⟩

theorem inst_shape {tagged : Bool} {r : RVal} (h : RHas (instT tagged) r) :
    ∃ k op c, r = .sum k (.prod [.leaf op, .leaf c]) ∧ op < 4 ∧ (k = kArith ∧ c < 256 ∨ k = kBit ∧ c < 2) := by
  cases r with
  | leaf _ => cases tagged <;> simp [instT, RHas] at h
  | prod _ => cases tagged <;> simp [instT, RHas] at h
  | sum k v =>
    have key : k = kArith ∧ RHas arithOpT v ∨ k = kBit ∧ RHas bitOpT v := by
      cases tagged
      · simp only [instT, Bool.false_eq_true, if_false, RHas, RHasAt] at h
        split at h
        · next hk => exact .inr ⟨hk, h⟩
        · split at h
          · next hk => exact .inl ⟨hk, h⟩
          · cases h
      · simp only [instT, if_true, RHas, RHasAt] at h
        split at h
        · next hk => exact .inl ⟨hk, h⟩
        · split at h
          · next hk => exact .inr ⟨hk, h⟩
          · cases h
    rcases key with ⟨hk, hv⟩ | ⟨hk, hv⟩
    · obtain ⟨op, c, rfl, h1, h2⟩ := pair_shape hv
      exact ⟨k, op, c, rfl, h1, .inl ⟨hk, h2⟩⟩
    · obtain ⟨op, c, rfl, h1, h2⟩ := pair_shape hv
      exact ⟨k, op, c, rfl, h1, .inr ⟨hk, h2⟩⟩

theorem inst_code {tagged : Bool} {k : Key} {op c : Nat} (hk : k = kArith ∨ k = kBit) :
    rawCode (instT tagged) (.sum k (.prod [.leaf op, .leaf c])) = (if k = kArith then arithTag tagged else 1 - arithTag tagged) + 2 * (op + 4 * c) := by
  have ht : tagBits 2 = 1 := by decide
  have ho : ∀ n, rawCode opT (.leaf n) = n := fun n => rfl
  have hp : ∀ cc w, rawCode (.prod cc (.cons 0 opT (.cons 1 (.bv 0 w) .nil))) (.prod [.leaf op, .leaf c]) = op + 4 * c := by
    intro cc w
    simp only [rawCode, rawCodeAll, op_width, ho]
    omega
  rcases hk with rfl | rfl <;> cases tagged <;>
    simp [instT, rawCode, rawCodeAt, optionIndex, kArith, kBit, arithTag, Fields.toList, ht, arithOpT, bitOpT] <;>
    simp only [rawCodeAll, op_width, ho, rawCode] <;> omega

/-- The inputs of the PE. -/
theorem pe_shape {tagged : Bool} {vs : List RVal} (h : RHas (.prod 6 (peIn tagged)) (.prod vs)) :
    ∃ k op c a b e d, vs = [.sum k (.prod [.leaf op, .leaf c]), .leaf a, .leaf b, .leaf e, .leaf d] ∧ op < 4 ∧
      (k = kArith ∧ c < 256 ∨ k = kBit ∧ c < 2) ∧ a < 256 ∧ b < 256 ∧ e < 256 ∧ d < 2 := by
  match vs, h with
  | [v0, v1, v2, v3, v4], ⟨h0, h1, h2, h3, h4, _⟩ =>
    obtain ⟨k, op, c, rfl, ho, hk⟩ := inst_shape h0
    obtain ⟨a, rfl, ha⟩ := leaf_shape (.inl ⟨_, _, rfl⟩) h1
    obtain ⟨b, rfl, hb⟩ := leaf_shape (.inl ⟨_, _, rfl⟩) h2
    obtain ⟨e, rfl, he⟩ := leaf_shape (.inl ⟨_, _, rfl⟩) h3
    obtain ⟨d, rfl, hd⟩ := leaf_shape (.inr (.inl ⟨_, rfl⟩)) h4
    exact ⟨k, op, c, a, b, e, d, rfl, ho, hk, ha, hb, he, hd⟩

theorem new8 (P : Process) (x : BitVec 8) : AV.new P.asm (.bv 0 8) (.asm (b8 x)) = .ok (mkAV (.bv 0 8) x.toNat) := by
  simp only [AV.new, AV.plain, b8, mkAV, BV.ofNat_val]
  rw [VF.ofNat_mod]

theorem new1 (P : Process) (d : Nat) (hd : d < 2) : AV.new P.asm (.bv 0 1) (.asm (.bits (BV.ofNat 1 (d.testBit 0).toNat))) = .ok (mkAV (.bv 0 1) d) := by
  simp only [AV.new, AV.plain, mkAV, BV.ofNat_val]
  rw [VF.ofNat_mod]
  have : d = 0 ∨ d = 1 := by omega
  rcases this with rfl | rfl <;> rfl

theorem pe_computes (P : Process) (tagged : Bool) : Computes P (pe P.asm tagged) peFn := by
  refine ⟨6, peIn tagged, 7, peOut, rfl, rfl, ?_⟩
  intro vs bb h
  obtain ⟨k, op, c, a, b, e, d, rfl, ho, hk, ha, hb, he, hd⟩ := pe_shape h
  have hcode := inst_code (tagged := tagged) (op := op) (c := c) (k := k) (by rcases hk with h | h; exacts [.inl h.1, .inr h.1])
  have hat : arithTag tagged < 2 := by cases tagged <;> decide
  have hc256 : c < 256 := by rcases hk with h | h <;> omega
  have hn : rawCode (instT tagged) (.sum k (.prod [.leaf op, .leaf c])) < 2048 := by
    rw [hcode]; split <;> omega
  refine ⟨_, rfl, ⟨?_, ?_, trivial⟩, ?_⟩
  · exact BitVec.isLt _
  · exact hd
  · have hcall := call_num P tagged (n := rawCode (instT tagged) (.sum k (.prod [.leaf op, .leaf c]))) (a := a) (b := b) (c := e) (d := d.testBit 0) hn (0, 1, 2, 3, 4)
    have hrun : (pe P.asm tagged).run (inputDict (peIn tagged) [.sum k (.prod [.leaf op, .leaf c]), .leaf a, .leaf b, .leaf e, .leaf d]) bb =
        ([b8 (word (k == kArith) (op == 1) (c != 0) (.ofNat 8 c) (.ofNat 8 a) (.ofNat 8 b)), .bits (BV.ofNat 1 (d.testBit 0).toNat)], []) := by
      simp only [pe, peIn, inputDict]
      have : peCall P.asm [(0, mkAV (instT tagged) (rawCode (instT tagged) (.sum k (.prod [.leaf op, .leaf c])))), (1, mkAV (.bv 0 8) (rawCode (.bv 0 8) (.leaf a))),
        (2, mkAV (.bv 0 8) (rawCode (.bv 0 8) (.leaf b))), (3, mkAV (.bv 0 8) (rawCode (.bv 0 8) (.leaf e))), (4, mkAV (.bit 0) (rawCode (.bit 0) (.leaf d)))] = _ := hcall
      rw [this]
      simp only [Prod.mk.injEq, List.cons.injEq, and_true]
      rw [hcode]
      rcases hk with ⟨rfl, hc⟩ | ⟨rfl, hc⟩
      · rw [if_pos rfl]
        have e1 : (arithTag tagged + 2 * (op + 4 * c)) % 2 = arithTag tagged := by omega
        have e2 : (arithTag tagged + 2 * (op + 4 * c)) / 2 % 4 = op := by omega
        have e3 : (arithTag tagged + 2 * (op + 4 * c)) / 8 = c := by omega
        simp only [e1, e2, e3, word, decide_true, beq_self_eq_true, if_true]
      · have hne : kBit ≠ kArith := by decide
        have e1 : ((if kBit = kArith then arithTag tagged else 1 - arithTag tagged) + 2 * (op + 4 * c)) % 2 ≠ arithTag tagged := by rw [if_neg hne]; omega
        have e2 : ((if kBit = kArith then arithTag tagged else 1 - arithTag tagged) + 2 * (op + 4 * c)) / 2 % 4 = op := by rw [if_neg hne]; omega
        have e3 : ((if kBit = kArith then arithTag tagged else 1 - arithTag tagged) + 2 * (op + 4 * c)) / 8 = c := by rw [if_neg hne]; omega
        have e4 : c % 2 = c := by omega
        have hb' : (kBit == kArith) = false := by decide
        simp only [e2, e3, e4, decide_eq_false e1, word, hb', Bool.false_eq_true, if_false]
    rw [hrun]
    exact ⟨⟨new8 P _, new1 P d hd, trivial⟩, rfl⟩

theorem pe_total (P : Process) (tagged : Bool) : Total P (pe P.asm tagged) := by
  refine ⟨6, peIn tagged, 7, peOut, rfl, rfl, ?_⟩
  intro d bb h
  match d, h with
  | [(_, x0), (_, x1), (_, x2), (_, x3), (_, x4)], ⟨_, ⟨n0, h0, e0⟩, _, ⟨n1, h1, e1⟩, _, ⟨n2, h2, e2⟩, _, ⟨n3, h3, e3⟩, _, ⟨n4, h4, e4⟩, _⟩ =>
    subst e0 e1 e2 e3 e4
    rw [inst_width] at h0
    have hcall := call_num P tagged (n := n0) (a := n1) (b := n2) (c := n3) (d := n4.testBit 0) h0
    refine ⟨[.leaf (word (decide (n0 % 2 = arithTag tagged)) (n0 / 2 % 4 == 1) (n0 / 8 % 2 != 0) (.ofNat 8 (n0 / 8)) (.ofNat 8 n1) (.ofNat 8 n2)).toNat, .leaf n4],
      ⟨BitVec.isLt _, h4, trivial⟩, ?_⟩
    have : ∀ ks : Key × Key × Key × Key × Key, ((pe P.asm tagged).run [(ks.1, mkAV (instT tagged) n0), (ks.2.1, mkAV (.bv 0 8) n1), (ks.2.2.1, mkAV (.bv 0 8) n2),
        (ks.2.2.2.1, mkAV (.bv 0 8) n3), (ks.2.2.2.2, mkAV (.bit 0) n4)] bb).1 =
        [b8 (word (decide (n0 % 2 = arithTag tagged)) (n0 / 2 % 4 == 1) (n0 / 8 % 2 != 0) (.ofNat 8 (n0 / 8)) (.ofNat 8 n1) (.ofNat 8 n2)), .bits (BV.ofNat 1 (n4.testBit 0).toNat)] := by
      intro ks
      simp only [pe]
      rw [show peCall P.asm [(ks.1, mkAV (instT tagged) n0), (ks.2.1, mkAV (.bv 0 8) n1), (ks.2.2.1, mkAV (.bv 0 8) n2),
        (ks.2.2.2.1, mkAV (.bv 0 8) n3), (ks.2.2.2.2, mkAV (.bit 0) n4)] = _ from hcall ks]
    rw [this (_, _, _, _, _)]
    exact ⟨new8 P _, new1 P n4 h4, trivial⟩

end Peak.SPe
