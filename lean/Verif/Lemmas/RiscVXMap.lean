import Verif.Model.RiscVXMap
import Verif.Lemmas.RiscVMap
import Verif.Props.RiscVExt
/-!
# The simulator of examples/riscv_ext on the bits of an instruction is the simulator on the instruction
-/

namespace Peak.RXM
open Peak Peak.Spec
open Peak.RV (Word Idx SmtRF smtFile BitInst ExtInst CntSt)
open Peak.RPe (isMem idxOf)
open Peak.RMap (kRd kData kTag kArith oOP oIMM oLUI oAUIPC oJAL oJALR oBranch oLoad oStore aluT opT immT luiT auipcT jalT jalrT brT ldT stT Dec wfs_of_list idx_num enum_leaf prod2 leaves2
  exec_arith Same Fine fine_arith any_op any_imm any_lui any_auipc any_jal any_jalr any_branch any_mem dec_op dec_imm dec_lui dec_auipc dec_jal dec_jalr dec_branch dec_mem dec_store alu_any alu_raw)

theorem bit_wf : WF bitT := by simp [bitT, WF, autos]
theorem bit_width : width bitT = 2 := by decide +kernel
theorem e_wf : WF eT := ⟨by simp [Fields.toList, kRd, kRs], trivial, trivial, trivial⟩
theorem ext_wf : WF extT := ⟨by simp [Fields.toList, kData, kTag], e_wf, bit_wf, trivial⟩

theorem option_wf {k : Key} {t : Ty} (h : (k, t) ∈ options) : WF t := by
  rcases List.mem_append.mp h with h | h
  · exact RMap.option_wf h
  · simp only [List.mem_singleton, Prod.mk.injEq] at h
    rw [h.2]
    exact ext_wf

theorem inst_wf {opts : Fields} (h : opts.toList.Perm options) : WF (instT opts) := by
  refine ⟨?_, ?_, wfs_of_list (fun k t hk => option_wf (h.mem_iff.mp hk))⟩
  · intro e
    have := h.length_eq
    rw [e] at this
    cases this
  · exact (h.map (·.1)).nodup_iff.mpr (by decide)

/-! ## counting -/

/-- A member of `BitInst`, from its code. -/
def bitOf : Nat → BitInst
  | 0 => .POPCNT
  | 1 => .CNTLZ
  | _ => .CNTTZ

theorem bit_code (P : Process) (i : Nat) (hi : i < 3) (n : Nat) (hn : n < 4) : isMem P.asm (.auto (70 + i)) (mkAV bitT n) = .ok (n == i) := by
  have hw := bit_width
  have h3 : i = 0 ∨ i = 1 ∨ i = 2 := by omega
  have h := RG.isMem_code P (m := .auto (70 + i)) bit_wf (by
    rcases h3 with rfl | rfl | rfl <;> simp) (n := n) (by show n < 2 ^ width bitT; rw [hw]; exact hn)
  rw [← bitT] at h
  rw [h]
  have e : encode bitT (.enum (.auto (70 + i))) = i := by
    rcases h3 with rfl | rfl | rfl <;> decide +kernel
  rw [e]

theorem count_of {step : CntSt → CntSt} {w r : Word} (h : RV.countLoop step w = .ok r) : count step w = r := by
  simp only [RV.countLoop] at h
  simp only [count]
  split at h
  · rename_i hw
    rw [if_pos hw]
    cases h
    rfl
  · rename_i hw
    rw [if_neg hw]
    split at h
    · cases h
      rfl
    · cases h

theorem bit_raw (P : Process) {n : Nat} (hn : n < 4) (w : Word) : ∃ r, bitCount P.asm (mkAV bitT n) w = .ok r ∧ RV.bitCounter (bitOf n) w = .ok r := by
  have a0 := bit_code P 0 (by decide) n hn
  have a1 := bit_code P 1 (by decide) n hn
  simp only [Nat.reduceAdd] at a0 a1
  simp only [bitCount, bind, Except.bind, a0, a1]
  obtain ⟨r1, h1, _⟩ := RV.C46_cntlz w
  obtain ⟨r2, h2, _⟩ := RV.C46_cnttz w
  have : n = 0 ∨ n = 1 ∨ n = 2 ∨ n = 3 := by omega
  rcases this with rfl | rfl | rfl | rfl
  · exact ⟨_, rfl, rfl⟩
  · exact ⟨_, by rw [← count_of h1]; rfl, h1⟩
  · exact ⟨_, by rw [← count_of h2]; rfl, h2⟩
  · exact ⟨_, by rw [← count_of h2]; rfl, h2⟩

/-! ## decoding -/

/-- A raw value of the form of an instruction, as an instruction. -/
def ofRaw : RVal → ExtInst
  | .sum k v =>
    if k = oExt then match v with
      | .prod [.prod [.leaf rd, .leaf rs], .leaf c] => .Ext (.ofNat 5 rd) (.ofNat 5 rs) (bitOf c)
      | _ => .base (.LUI ⟨0, 0⟩)
    else .base (RMap.ofRaw (.sum k v))
  | _ => .base (.LUI ⟨0, 0⟩)

section
variable (P : Process) (s : SmtRF) (pc : Word)

theorem any_ext {m : Nat} (hm : m < 2 ^ width extT) : ∃ d, decExt P.asm s (mkAV extT m) = .ok d ∧ Fine d := by
  have hwb := bit_width
  obtain ⟨m1, h1, g1⟩ := RG.get_any P (k := kData) (t := eT) ext_wf hm (by simp [Fields.toList])
  obtain ⟨m2, h2, g2⟩ := RG.get_any P (k := kTag) (t := bitT) ext_wf hm (by simp [Fields.toList])
  obtain ⟨m3, h3, g3⟩ := RG.get_any P (k := kRs) (t := .bv 0 5) e_wf h1 (by simp [Fields.toList])
  obtain ⟨m5, h5, g5⟩ := RG.get_any P (k := kRd) (t := .bv 0 5) e_wf h1 (by simp [Fields.toList])
  rw [← extT] at g1 g2
  rw [← eT] at g3 g5
  rw [hwb] at h2
  have e := exec_arith P 0 (by decide)
  simp only [Nat.reduceAdd] at e
  obtain ⟨r, hr, _⟩ := bit_raw P h2 (if BitVec.ofNat 5 m3 ≠ 0 then s.rs1 else 0)
  simp only [decExt, bind, Except.bind, g1, g2, g3, g5, idx_num, smtFile, hr, e]
  exact ⟨_, rfl, fine_arith (c := 0) (by decide) rfl⟩

/-- What the model on instructions decodes. -/
abbrev rvDecode (i : ExtInst) : Except Err RV.Dec := RV.extDecode (smtFile.load1 s) (smtFile.load2 s) false pc i

theorem dec_ext {v : RVal} (h : RHas extT v) : ∃ d d', decExt P.asm s (mkAV extT (rawCode extT v)) = .ok d ∧ rvDecode s pc (ofRaw (.sum oExt v)) = .ok d' ∧ Same d d' := by
  obtain ⟨x, y, rfl, hx, hy⟩ := prod2 h
  obtain ⟨a, b, rfl⟩ := leaves2 hx
  obtain ⟨n, rfl, hn⟩ := enum_leaf hy
  rw [← bitT, bit_width] at hn
  have gx := RG.get_raw P (k := kData) ext_wf h (.head _)
  have gy := RG.get_raw P (k := kTag) ext_wf h (.tail _ (.head _))
  rw [← extT] at gx gy
  have gd := RG.get_raw P (k := kRd) e_wf hx (.head _)
  have gs := RG.get_raw P (k := kRs) e_wf hx (.tail _ (.head _))
  rw [← eT] at gd gs
  have e1 : ∀ w n, rawCode (.bv 0 w) (.leaf n) = n := fun _ _ => rfl
  rw [e1] at gd gs
  have e2 : rawCode bitT (.leaf n) = n := rfl
  rw [e2] at gy
  have e := exec_arith P 0 (by decide)
  simp only [Nat.reduceAdd] at e
  obtain ⟨r, hr, hr'⟩ := bit_raw P hn (if BitVec.ofNat 5 b ≠ 0 then s.rs1 else 0)
  refine ⟨_, { a := r, b := 0, exec := .arith .ADD, rd := .ofNat 5 a }, by simp only [decExt, bind, Except.bind, gx, gy, gd, gs, idx_num, smtFile, hr, e]; rfl, ?_,
    ⟨rfl, rfl, rfl, rfl, rfl, rfl, rfl, rfl, rfl, kArith, 0, .inl ⟨rfl, by decide⟩, rfl, rfl⟩⟩
  simp only [rvDecode, ofRaw, if_true, RV.extDecode, smtFile, bind, Except.bind, hr', pure, Except.pure]

/-- Reading option `k'` of an instruction with option `k`. -/
theorem pick {opts : Fields} (ho : opts.toList.Perm options) {k k' : Key} {t t' : Ty} {v : RVal} (hk : (k, t) ∈ options) (hk' : (k', t') ∈ options) (hv : RHas t v) :
    ∃ m, m < 2 ^ width t' ∧ (mkAV (instT opts) (rawCode (instT opts) (.sum k v))).getOption P.asm k' = .ok (decide (k' = k), mkAV t' m) ∧ (k' = k → t' = t ∧ m = rawCode t v) := by
  have hw := inst_wf ho
  have h1 := ho.mem_iff.2 hk
  have h2 := ho.mem_iff.2 hk'
  obtain ⟨g1, g2⟩ := RG.option_raw P hw h1 hv
  by_cases e : k' = k
  · subst e
    have et : t' = t := by
      have hn := hw.2.1
      obtain ⟨i, hi⟩ := List.getElem?_of_mem h2
      obtain ⟨j, hj⟩ := List.getElem?_of_mem h1
      have e1 := optionIndex_of_get hn hi
      have e2 := optionIndex_of_get hn hj
      have : i = j := e1.symm.trans e2
      rw [this, hj] at hi
      cases hi; rfl
    subst et
    exact ⟨_, SB.code_lt _ _ (option_wf hk) hv, by simpa [instT] using g1, fun _ => ⟨rfl, rfl⟩⟩
  · obtain ⟨m, hm, g⟩ := g2 k' t' h2 e
    exact ⟨m, hm, by simpa [instT, e] using g, fun h => absurd h e⟩

theorem decode_of {opts : Fields} (ho : opts.toList.Perm options) {r : RVal} (hr : RHas (instT opts) r) :
    ∃ d d', decode P.asm s pc (mkAV (instT opts) (rawCode (instT opts) r)) = .ok d ∧ rvDecode s pc (ofRaw r) = .ok d' ∧ Same d d' := by
  cases r with
  | sum k v =>
    obtain ⟨t, ht, hv⟩ := RG.has_at hr
    have hk := ho.mem_iff.1 ht
    obtain ⟨m0, h0, g0, f0⟩ := pick P ho hk (k' := oOP) (t' := opT) (by simp [options, RMap.options]) hv
    obtain ⟨d0, e0, _⟩ := any_op P s h0
    obtain ⟨m1, h1, g1, f1⟩ := pick P ho hk (k' := oIMM) (t' := immT) (by simp [options, RMap.options]) hv
    obtain ⟨d1, e1, _⟩ := any_imm P s h1
    obtain ⟨m2, h2, g2, f2⟩ := pick P ho hk (k' := oLUI) (t' := luiT) (by simp [options, RMap.options]) hv
    obtain ⟨d2, e2, _⟩ := any_lui P h2
    obtain ⟨m3, h3, g3, f3⟩ := pick P ho hk (k' := oAUIPC) (t' := auipcT) (by simp [options, RMap.options]) hv
    obtain ⟨d3, e3, _⟩ := any_auipc P pc h3
    obtain ⟨m4, h4, g4, f4⟩ := pick P ho hk (k' := oJAL) (t' := jalT) (by simp [options, RMap.options]) hv
    obtain ⟨d4, e4, _⟩ := any_jal P pc h4
    obtain ⟨m5, h5, g5, f5⟩ := pick P ho hk (k' := oJALR) (t' := jalrT) (by simp [options, RMap.options]) hv
    obtain ⟨d5, e5, _⟩ := any_jalr P s h5
    obtain ⟨m6, h6, g6, f6⟩ := pick P ho hk (k' := oBranch) (t' := brT) (by simp [options, RMap.options]) hv
    obtain ⟨d6, e6, _⟩ := any_branch P s h6
    obtain ⟨m7, h7, g7, f7⟩ := pick P ho hk (k' := oLoad) (t' := ldT) (by simp [options, RMap.options]) hv
    obtain ⟨d7, e7, _⟩ := any_mem P
    obtain ⟨m8, h8, g8, f8⟩ := pick P ho hk (k' := oStore) (t' := stT) (by simp [options, RMap.options]) hv
    obtain ⟨m9, h9, g9, f9⟩ := pick P ho hk (k' := oExt) (t' := extT) (by simp [options]) hv
    obtain ⟨d9, e9, _⟩ := any_ext P s h9
    have hk2 := hk
    simp only [options, RMap.options, List.cons_append, List.nil_append, List.mem_cons, Prod.mk.injEq, List.not_mem_nil, or_false] at hk2
    rcases hk2 with ⟨rfl, rfl⟩ | ⟨rfl, rfl⟩ | ⟨rfl, rfl⟩ | ⟨rfl, rfl⟩ | ⟨rfl, rfl⟩ | ⟨rfl, rfl⟩ | ⟨rfl, rfl⟩ | ⟨rfl, rfl⟩ | ⟨rfl, rfl⟩ | ⟨rfl, rfl⟩
    · obtain ⟨d, d', q1, q2, q3⟩ := dec_op P s pc hv
      rw [(f0 rfl).2] at g0
      exact ⟨d, d', by simp only [decode, bind, Except.bind, g0, g1, g2, g3, g4, g5, g6, g7, g8, g9, q1, e1, e2, e3, e4, e5, e6, e7, e9]; rfl, q2, q3⟩
    · obtain ⟨d, d', q1, q2, q3⟩ := dec_imm P s pc hv
      rw [(f1 rfl).2] at g1
      exact ⟨d, d', by simp only [decode, bind, Except.bind, g0, g1, g2, g3, g4, g5, g6, g7, g8, g9, e0, q1, e2, e3, e4, e5, e6, e7, e9]; rfl, q2, q3⟩
    · obtain ⟨d, d', q1, q2, q3⟩ := dec_lui P s pc hv
      rw [(f2 rfl).2] at g2
      exact ⟨d, d', by simp only [decode, bind, Except.bind, g0, g1, g2, g3, g4, g5, g6, g7, g8, g9, e0, e1, q1, e3, e4, e5, e6, e7, e9]; rfl, q2, q3⟩
    · obtain ⟨d, d', q1, q2, q3⟩ := dec_auipc P s pc hv
      rw [(f3 rfl).2] at g3
      exact ⟨d, d', by simp only [decode, bind, Except.bind, g0, g1, g2, g3, g4, g5, g6, g7, g8, g9, e0, e1, e2, q1, e4, e5, e6, e7, e9]; rfl, q2, q3⟩
    · obtain ⟨d, d', q1, q2, q3⟩ := dec_jal P s pc hv
      rw [(f4 rfl).2] at g4
      exact ⟨d, d', by simp only [decode, bind, Except.bind, g0, g1, g2, g3, g4, g5, g6, g7, g8, g9, e0, e1, e2, e3, q1, e5, e6, e7, e9]; rfl, q2, q3⟩
    · obtain ⟨d, d', q1, q2, q3⟩ := dec_jalr P s pc hv
      rw [(f5 rfl).2] at g5
      exact ⟨d, d', by simp only [decode, bind, Except.bind, g0, g1, g2, g3, g4, g5, g6, g7, g8, g9, e0, e1, e2, e3, e4, q1, e6, e7, e9]; rfl, q2, q3⟩
    · obtain ⟨d, d', q1, q2, q3⟩ := dec_branch P s pc hv
      rw [(f6 rfl).2] at g6
      exact ⟨d, d', by simp only [decode, bind, Except.bind, g0, g1, g2, g3, g4, g5, g6, g7, g8, g9, e0, e1, e2, e3, e4, e5, q1, e7, e9]; rfl, q2, q3⟩
    · obtain ⟨d, d', q1, q2, q3⟩ := dec_mem P s pc hv
      exact ⟨d, d', by simp only [decode, bind, Except.bind, g0, g1, g2, g3, g4, g5, g6, g7, g8, g9, e0, e1, e2, e3, e4, e5, e6, q1, e9]; rfl, q2, q3⟩
    · obtain ⟨d, d', q1, q2, q3⟩ := dec_store P s pc hv
      exact ⟨d, d', by simp only [decode, bind, Except.bind, g0, g1, g2, g3, g4, g5, g6, g7, g8, g9, e0, e1, e2, e3, e4, e5, e6, q1, e9]; rfl, q2, q3⟩
    · obtain ⟨d, d', q1, q2, q3⟩ := dec_ext P s pc hv
      rw [(f9 rfl).2] at g9
      exact ⟨d, d', by simp only [decode, bind, Except.bind, g0, g1, g2, g3, g4, g5, g6, g7, g8, g9, e0, e1, e2, e3, e4, e5, e6, e7, q1]; rfl, q2, q3⟩
  | _ => exact hr.elim

end

/-- The call returns whatever the bits of the instruction are. -/
theorem call_any (P : Process) {opts : Fields} (ho : opts.toList.Perm options) {n : Nat} (hn : n < 2 ^ width (instT opts)) (pc rs1 rs2 rd : Word) :
    ∃ p r, smtCall P.asm (mkAV (instT opts) n) pc rs1 rs2 rd = .ok (p, r) := by
  have hw := inst_wf ho
  have hd : ∃ d, decode P.asm ⟨rs1, rs2, rd⟩ pc (mkAV (instT opts) n) = .ok d ∧ Fine d := by
    have op : ∀ k t, (k, t) ∈ options → ∃ b m, m < 2 ^ width t ∧ (mkAV (instT opts) n).getOption P.asm k = .ok (b, mkAV t m) := fun k t h => RG.option_any P hw hn (ho.mem_iff.2 h)
    obtain ⟨b0, m0, h0, g0⟩ := op oOP opT (by simp [options, RMap.options])
    obtain ⟨b1, m1, h1, g1⟩ := op oIMM immT (by simp [options, RMap.options])
    obtain ⟨b2, m2, h2, g2⟩ := op oLUI luiT (by simp [options, RMap.options])
    obtain ⟨b3, m3, h3, g3⟩ := op oAUIPC auipcT (by simp [options, RMap.options])
    obtain ⟨b4, m4, h4, g4⟩ := op oJAL jalT (by simp [options, RMap.options])
    obtain ⟨b5, m5, h5, g5⟩ := op oJALR jalrT (by simp [options, RMap.options])
    obtain ⟨b6, m6, h6, g6⟩ := op oBranch brT (by simp [options, RMap.options])
    obtain ⟨b7, m7, h7, g7⟩ := op oLoad ldT (by simp [options, RMap.options])
    obtain ⟨b8, m8, h8, g8⟩ := op oStore stT (by simp [options, RMap.options])
    obtain ⟨b9, m9, h9, g9⟩ := op oExt extT (by simp [options])
    obtain ⟨d0, e0, k0⟩ := any_op P ⟨rs1, rs2, rd⟩ h0
    obtain ⟨d1, e1, k1⟩ := any_imm P ⟨rs1, rs2, rd⟩ h1
    obtain ⟨d2, e2, k2⟩ := any_lui P h2
    obtain ⟨d3, e3, k3⟩ := any_auipc P pc h3
    obtain ⟨d4, e4, k4⟩ := any_jal P pc h4
    obtain ⟨d5, e5, k5⟩ := any_jalr P ⟨rs1, rs2, rd⟩ h5
    obtain ⟨d6, e6, k6⟩ := any_branch P ⟨rs1, rs2, rd⟩ h6
    obtain ⟨d7, e7, k7⟩ := any_mem P
    obtain ⟨d9, e9, k9⟩ := any_ext P ⟨rs1, rs2, rd⟩ h9
    refine ⟨_, by simp only [decode, bind, Except.bind, g0, g1, g2, g3, g4, g5, g6, g7, g8, g9, e0, e1, e2, e3, e4, e5, e6, e7, e9]; rfl, ?_⟩
    clear g0 g1 g2 g3 g4 g5 g6 g7 g8 g9 e0 e1 e2 e3 e4 e5 e6 e7 e9 op
    repeat' (split; · assumption)
    assumption
  obtain ⟨d, e, m, hm, he⟩ := hd
  obtain ⟨w, hx⟩ := alu_any P hm d.a d.b
  rw [← he] at hx
  simp only [smtCall, bind, Except.bind, e, hx]
  exact ⟨_, _, rfl⟩

/-- `R32I_mappable` on an assembled instruction computes what it computes on the instruction with these fields. -/
theorem call_of (P : Process) {opts : Fields} (ho : opts.toList.Perm options) {r : RVal} (hr : RHas (instT opts) r) (pc rs1 rs2 rd : Word) :
    smtCall P.asm (mkAV (instT opts) (rawCode (instT opts) r)) pc rs1 rs2 rd = mappableX (ofRaw r) pc rs1 rs2 rd := by
  obtain ⟨d, d', h1, h2, hs⟩ := decode_of P ⟨rs1, rs2, rd⟩ pc ho hr
  obtain ⟨k, c, hk, h3, h4⟩ := hs.exec
  have h5 := alu_raw P hk d.a d.b
  rw [← h3] at h5
  have h2' : RV.extDecode (smtFile.load1 ⟨rs1, rs2, rd⟩) (smtFile.load2 ⟨rs1, rs2, rd⟩) false pc (ofRaw r) = .ok d' := h2
  simp only [smtCall, mappableX, RV.extCall, bind, Except.bind, pure, Except.pure, h1, h2', h5, Bool.false_and, Bool.false_eq_true, if_false, RV.commit, h4, ← hs.a, ← hs.b, ← hs.rd, ← hs.lsbMask,
    ← hs.isBranch, ← hs.isJump, ← hs.branchOffset, ← hs.cmpZero, ← hs.invert]
  cases d.isBranch <;> cases d.isJump <;> simp

end Peak.RXM
