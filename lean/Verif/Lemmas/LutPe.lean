import Verif.Spec.LutPe
import Verif.Lemmas.SumPe
import Verif.Lemmas.WordIr
import Verif.Lemmas.RegPe
/-!
# The PE of `examples/PE_lut` as a function
-/

namespace Peak.LPe
open Peak Peak.Spec

theorem op_wf : WF opT := by simp [opT, WF, autos]
theorem alu_wf (w : Nat) : WF (aluT w) := ⟨by simp [Fields.toList], op_wf, trivial, trivial⟩
theorem inst_wf (w : Nat) : WF (instT w) := ⟨by simp [Fields.toList], alu_wf w, trivial, trivial⟩

theorem op_width : width opT = 3 := by decide +kernel
theorem alu_width (w : Nat) : width (aluT w) = 3 + w := by
  have := op_width
  simp [aluT, width, sumWidths, this]
theorem inst_width (w : Nat) : width (instT w) = 3 + w + 8 := by
  have := alu_width w
  simp [instT, width, sumWidths, this]

/-- The fields of an instruction, from its bits. -/
def opBits (w n : Nat) : Nat := bitsAt (instT w) n [0, 0]
def immBits (w n : Nat) : Nat := bitsAt (instT w) n [0, 1]
def lutBits (w n : Nat) : Nat := bitsAt (instT w) n [1]

theorem op_code (m : Op) : encode opT (.enum m.mem) = (match m with | .imm => 1 | .add => 2 | .mux => 6) := by cases m <;> decide +kernel

theorem isMem_num (P : Process) (m : Op) (n : Nat) (hn : n < 8) : RPe.isMem P.asm m.mem (mkAV opT n) = .ok (n == encode opT (.enum m.mem)) := by
  obtain ⟨o, ho, hg⟩ := P.good op_wf
  have hh : opT.Has (.enum m.mem) := by cases m <;> simp [opT, Ty.Has, Op.mem]
  have hi : opT.isinst (.enum m.mem) = true := (isinst_iff _ _).2 hh
  have hlt : encode opT (.enum m.mem) < 8 := by cases m <;> decide +kernel
  simp only [mkAV, opT, RPe.isMem]
  rw [← opT]
  simp only [AV.eq, ho, hi, if_true, hg.assemble op_wf hh]
  rw [BV.ofNat_val, BV.ofNat_val, op_width, Nat.mod_eq_of_lt (by omega : n < 2 ^ 3), Nat.mod_eq_of_lt (by omega : _ < 2 ^ 3)]

theorem bvOf_num {c w n : Nat} : bvOf w (mkAV (.bv c w) n) = .ok (.ofNat w n) := by
  simp only [mkAV, bvOf, BV.ofNat_val, Except.ok.injEq]
  apply BitVec.eq_of_toNat_eq
  simp

/-- The PE on an assembled instruction. -/
theorem call_num (P : Process) {w n : Nat} (hn : n < 2 ^ (3 + w + 8)) (d0 d1 : BitVec w) (b0 b1 b2 : Bool) : smtCall P.asm w (mkAV (instT w) n) d0 d1 b0 b1 b2 =
    .ok (aluCall (opBits w n == 1) (opBits w n == 2) (.ofNat w (immBits w n)) d0 d1 b0, lutCall (.ofNat 8 (lutBits w n)) b0 b1 b2) := by
  have hn' : n < 2 ^ width (instT w) := by rw [inst_width]; exact hn
  obtain ⟨m, hm, g0, e0⟩ := ValF.get_num P (inst_wf w) hn' (k := 0) (t := aluT w) (by simp [Fields.toList])
  obtain ⟨l, hl, g1, e1⟩ := ValF.get_num P (inst_wf w) hn' (k := 1) (t := .bv 0 8) (by simp [Fields.toList])
  obtain ⟨o, ho, g2, e2⟩ := ValF.get_num P (alu_wf w) hm (k := 0) (t := opT) (by simp [Fields.toList])
  obtain ⟨i, hi, g3, e3⟩ := ValF.get_num P (alu_wf w) hm (k := 1) (t := .bv 0 w) (by simp [Fields.toList])
  have f1 : lutBits w n = l := (e1 []).1
  have f2 : opBits w n = o := ((e0 [0]).1).trans (e2 []).1
  have f3 : immBits w n = i := ((e0 [1]).1).trans (e3 []).1
  rw [op_width] at ho
  rw [← instT] at g0 g1
  rw [← aluT] at g2 g3
  have c1 := op_code .imm
  have c2 := op_code .add
  simp only at c1 c2
  simp only [smtCall, bind, Except.bind, g0, g1, g2, g3, isMem_num P _ _ ho, bvOf_num, f1, f2, f3, c1, c2]

/-- What the PE returns, from the fields of the instruction. -/
def val {w : Nat} (op imm lut : Nat) (d0 d1 : BitVec w) (b0 b1 b2 : Bool) : BitVec w × Bool :=
  (aluCall (op == 1) (op == 2) (.ofNat w imm) d0 d1 b0, lutCall (.ofNat 8 lut) b0 b1 b2)

/-- The bit in a leaf. -/
def leafBit : RVal → Bool
  | .leaf n => n.testBit 0
  | _ => false

/-- The PE on raw inputs. -/
def peFn (w : Nat) : Fn Nat := fun r _ => match r with
  | .prod [.prod [.prod [.leaf op, .leaf imm], .leaf lut], d0, d1, b0, b1, b2] =>
    let r := val op imm lut (WIr.leafWord w d0) (WIr.leafWord w d1) (leafBit b0) (leafBit b1) (leafBit b2)
    (.prod [.leaf r.1.toNat, .leaf r.2.toNat], [])
  | r => (r, [])

theorem inst_shape {w : Nat} {r : RVal} (h : RHas (instT w) r) :
    ∃ op imm lut, r = .prod [.prod [.leaf op, .leaf imm], .leaf lut] ∧ op < 8 ∧ imm < 2 ^ w ∧ lut < 256 := by
  have hwo := op_width
  cases r with
  | leaf _ => simp [instT, RHas] at h
  | sum _ _ => simp [instT, RHas] at h
  | prod vs =>
    match vs, h with
    | [v0, v1], ⟨h0, h1, _⟩ =>
      obtain ⟨lut, rfl, hl⟩ := SPe.leaf_shape (.inl ⟨_, _, rfl⟩) h1
      cases v0 with
      | leaf _ => simp [aluT, RHas] at h0
      | sum _ _ => simp [aluT, RHas] at h0
      | prod us =>
        match us, h0 with
        | [u0, u1], ⟨k0, k1, _⟩ =>
          obtain ⟨op, rfl, ho⟩ := SPe.leaf_shape (.inr (.inr ⟨_, _, rfl⟩)) k0
          obtain ⟨imm, rfl, hi⟩ := SPe.leaf_shape (.inl ⟨_, _, rfl⟩) k1
          rw [← opT, hwo] at ho
          exact ⟨op, imm, lut, rfl, ho, hi, hl⟩

theorem bits_raw {w op imm lut : Nat} (h : RHas (instT w) (.prod [.prod [.leaf op, .leaf imm], .leaf lut])) :
    opBits w (rawCode (instT w) (.prod [.prod [.leaf op, .leaf imm], .leaf lut])) = op ∧
    immBits w (rawCode (instT w) (.prod [.prod [.leaf op, .leaf imm], .leaf lut])) = imm ∧
    lutBits w (rawCode (instT w) (.prod [.prod [.leaf op, .leaf imm], .leaf lut])) = lut := by
  refine ⟨VF.bitsAt_raw _ _ (inst_wf w) h [0, 0] opT op ?_, VF.bitsAt_raw _ _ (inst_wf w) h [0, 1] (.bv 0 w) imm ?_, VF.bitsAt_raw _ _ (inst_wf w) h [1] (.bv 0 8) lut ?_⟩ <;>
    simp [instT, aluT, opT, rawLeaves, rawLeavesAll]

/-- The call on a raw instruction. -/
theorem call_raw (P : Process) {w : Nat} {r : RVal} (h : RHas (instT w) r) (d0 d1 b0 b1 b2 : RVal) (bb : List (Nat × List BV)) :
    ∃ x b, smtCall P.asm w (mkAV (instT w) (rawCode (instT w) r)) (WIr.leafWord w d0) (WIr.leafWord w d1) (leafBit b0) (leafBit b1) (leafBit b2) = .ok (x, b) ∧
      peFn w (.prod [r, d0, d1, b0, b1, b2]) bb = (.prod [.leaf x.toNat, .leaf b.toNat], []) := by
  obtain ⟨op, imm, lut, rfl, _⟩ := inst_shape h
  obtain ⟨e1, e2, e3⟩ := bits_raw h
  have hlt := SB.code_lt (instT w) _ (inst_wf w) h
  rw [inst_width] at hlt
  rw [call_num P hlt, e1, e2, e3]
  exact ⟨_, _, rfl, rfl⟩

theorem wordOf_mk (c w n : Nat) : wordOf w (mkAV (.bv c w) n) = .ofNat w n := by
  simp only [mkAV, wordOf, BV.ofNat_val]
  apply BitVec.eq_of_toNat_eq
  simp

theorem bitOf_mk (c n : Nat) : bitOf (mkAV (.bit c) n) = n.testBit 0 := rfl

theorem new_bit (P : Process) (b : Bool) : AV.new P.asm (.bit 0) (.asm (.bit b)) = .ok (mkAV (.bit 0) b.toNat) := by
  cases b <;> rfl

theorem bit_has (c : Nat) (b : Bool) : RHas (.bit c) (.leaf b.toNat) := by
  simp only [RHas]
  exact Bool.toNat_lt _

theorem pe_computes (P : Process) (w : Nat) : Computes P (pe P.asm w) (peFn w) := by
  refine ⟨33, .cons 0 (instT w) (dIn w), 34, dOut w, rfl, rfl, ?_⟩
  intro vs bb h
  match vs, h with
  | [v0, v1, v2, v3, v4, v5], ⟨h0, h1, h2, h3, h4, h5, _⟩ =>
    obtain ⟨a, rfl, ha⟩ := SPe.leaf_shape (.inl ⟨_, _, rfl⟩) h1
    obtain ⟨b, rfl, hb⟩ := SPe.leaf_shape (.inl ⟨_, _, rfl⟩) h2
    obtain ⟨p, rfl, hp⟩ := SPe.leaf_shape (.inr (.inl ⟨_, rfl⟩)) h3
    obtain ⟨q, rfl, hq⟩ := SPe.leaf_shape (.inr (.inl ⟨_, rfl⟩)) h4
    obtain ⟨r, rfl, hr⟩ := SPe.leaf_shape (.inr (.inl ⟨_, rfl⟩)) h5
    obtain ⟨x, y, hw1, hw2⟩ := call_raw P h0 (.leaf a) (.leaf b) (.leaf p) (.leaf q) (.leaf r) bb
    rw [hw2]
    refine ⟨_, rfl, ⟨x.isLt, ?_, trivial⟩, ?_⟩
    · exact bit_has _ _
    · simp only [WIr.leafWord, leafBit] at hw1
      simp only [pe, dIn, inputDict, wordOf_mk, bitOf_mk, rawCode, hw1]
      exact ⟨⟨WIr.new_word P w _, new_bit P _, trivial⟩, trivial⟩

theorem pe_total (P : Process) (w : Nat) : Total P (pe P.asm w) := by
  refine ⟨33, .cons 0 (instT w) (dIn w), 34, dOut w, rfl, rfl, ?_⟩
  intro d bb h
  match d, h with
  | [(_, x0), (_, x1), (_, x2), (_, x3), (_, x4), (_, x5)], ⟨_, ⟨n0, h0, e0⟩, _⟩ =>
    subst e0
    rw [inst_width] at h0
    simp only [pe, call_num P h0]
    refine ⟨[.leaf _, .leaf _], ⟨BitVec.isLt _, bit_has _ _, trivial⟩, WIr.new_word P w _, new_bit P _, trivial⟩

theorem pe_boxes (A : Ty → Except Err AsmObj) (w : Nat) : TotalBoxes (pe A w) (fun _ => [1]) := by
  intro ci fi _ d bb _
  refine ⟨?_, by simp [pe]⟩
  simp only [pe]
  split
  · split <;> rfl
  · rfl

/-! ## instructions on words and bits -/

theorem bit_mem {k : Nat} {t : Ty} : ∀ {i m : Nat}, (k, t) ∈ (bitFields i m).toList ↔ i ≤ k ∧ k < i + m ∧ t = .bit 0
  | i, 0 => by simp [bitFields, Fields.toList]; omega
  | i, m + 1 => by
    simp only [bitFields, Fields.toList, List.mem_cons, Prod.mk.injEq, bit_mem (i := i + 1) (m := m)]
    constructor
    · rintro (⟨rfl, rfl⟩ | ⟨h1, h2, h3⟩)
      · exact ⟨Nat.le_refl _, by omega, rfl⟩
      · exact ⟨by omega, by omega, h3⟩
    · rintro ⟨h1, h2, h3⟩
      by_cases h : k = i
      · exact .inl ⟨h, h3⟩
      · exact .inr ⟨by omega, by omega, h3⟩

theorem mix_mem {w k : Nat} {t : Ty} : ∀ {i n m : Nat}, (k, t) ∈ (mixFields w i n m).toList ↔ i ≤ k ∧ k < i + n + m ∧ t = if k < i + n then .bv 0 w else .bit 0
  | i, 0, m => by
    simp only [mixFields, bit_mem, Nat.add_zero]
    constructor
    · rintro ⟨h1, h2, h3⟩
      exact ⟨h1, h2, by rw [h3, if_neg (by omega)]⟩
    · rintro ⟨h1, h2, h3⟩
      rw [if_neg (by omega)] at h3
      exact ⟨h1, h2, h3⟩
  | i, n + 1, m => by
    simp only [mixFields, Fields.toList, List.mem_cons, Prod.mk.injEq, mix_mem (i := i + 1) (n := n) (m := m)]
    have e : i + 1 + n = i + (n + 1) := by omega
    rw [e]
    constructor
    · rintro (⟨rfl, rfl⟩ | ⟨h1, h2, h3⟩)
      · exact ⟨Nat.le_refl _, by omega, by rw [if_pos (by omega)]⟩
      · exact ⟨by omega, by omega, h3⟩
    · rintro ⟨h1, h2, h3⟩
      by_cases h : k = i
      · exact .inl ⟨h, by rw [h3, if_pos (by omega)]⟩
      · exact .inr ⟨by omega, by omega, h3⟩

theorem mix_flat (w i n m : Nat) : FlatFields (mixFields w i n m) := by
  intro k t h
  obtain ⟨_, _, e⟩ := mix_mem.mp h
  split at e <;> subst e <;> trivial

theorem bit_nodup : ∀ i m, ((bitFields i m).toList.map (·.1)).Nodup
  | _, 0 => by simp [bitFields, Fields.toList]
  | i, m + 1 => by
    simp only [bitFields, Fields.toList, List.map_cons, List.nodup_cons]
    refine ⟨?_, bit_nodup (i + 1) m⟩
    intro h
    obtain ⟨⟨k, t⟩, h1, h2⟩ := List.mem_map.mp h
    have := (bit_mem.mp h1).1
    simp only at h2
    subst h2
    exact absurd this (Nat.not_succ_le_self _)

theorem mix_nodup (w : Nat) : ∀ i n m, ((mixFields w i n m).toList.map (·.1)).Nodup
  | i, 0, m => bit_nodup i m
  | i, n + 1, m => by
    simp only [mixFields, Fields.toList, List.map_cons, List.nodup_cons]
    refine ⟨?_, mix_nodup w (i + 1) n m⟩
    intro h
    obtain ⟨⟨k, t⟩, h1, h2⟩ := List.mem_map.mp h
    have := (mix_mem.mp h1).1
    simp only at h2
    subst h2
    exact absurd this (Nat.not_succ_le_self _)

theorem bit_wf : ∀ i m, WFs (bitFields i m)
  | _, 0 => trivial
  | i, m + 1 => ⟨trivial, bit_wf (i + 1) m⟩

theorem mix_wf (w : Nat) : ∀ i n m, WFs (mixFields w i n m)
  | i, 0, m => bit_wf i m
  | i, n + 1, m => ⟨trivial, mix_wf w (i + 1) n m⟩

theorem bit_build : ∀ i m, Buildables (bitFields i m)
  | _, 0 => trivial
  | i, m + 1 => ⟨trivial, bit_build (i + 1) m⟩

theorem mix_build (w : Nat) : ∀ i n m, Buildables (mixFields w i n m)
  | i, 0, m => bit_build i m
  | i, n + 1, m => ⟨trivial, mix_build w (i + 1) n m⟩

/-- The words and the bits of raw arguments. -/
def rawWords (w n : Nat) (vs : List RVal) : List (BitVec w) := (vs.take n).map (WIr.leafWord w)
def rawBits (n : Nat) (vs : List RVal) : List Bool := (vs.drop n).map leafBit

theorem bit_dict : ∀ (i m : Nat) (vs : List RVal), RHasAll (bitFields i m) vs → (inputDict (bitFields i m) vs).map (fun kv => bitOf kv.2) = vs.map leafBit
  | _, 0, [], _ => rfl
  | _, 0, _ :: _, h => by simp [bitFields, RHasAll] at h
  | _, _ + 1, [], h => by simp [bitFields, RHasAll] at h
  | i, m + 1, v :: vs, h => by
    obtain ⟨k, rfl, hk⟩ := (InM.leaf_has (.inr (.inl ⟨0, rfl⟩))).mp h.1
    have ih := bit_dict (i + 1) m vs h.2
    simp only [bitFields, inputDict, List.map_cons, ih]
    rfl

theorem mix_dict (w : Nat) : ∀ (i n m : Nat) (vs : List RVal), RHasAll (mixFields w i n m) vs →
    ((inputDict (mixFields w i n m) vs).take n).map (fun kv => wordOf w kv.2) = rawWords w n vs ∧
    ((inputDict (mixFields w i n m) vs).drop n).map (fun kv => bitOf kv.2) = rawBits n vs
  | i, 0, m, vs, h => ⟨rfl, by simp only [List.drop_zero, rawBits]; exact bit_dict i m vs h⟩
  | _, _ + 1, _, [], h => by simp [mixFields, RHasAll] at h
  | i, n + 1, m, v :: vs, h => by
    obtain ⟨k, rfl, hk⟩ := (InM.leaf_has (.inl ⟨0, w, rfl⟩)).mp h.1
    have ih := mix_dict w (i + 1) n m vs h.2
    simp only [rawWords, rawBits] at ih
    simp only [mixFields, inputDict, List.take_succ_cons, List.drop_succ_cons, List.map_cons, rawWords, rawBits, ih, List.cons.injEq, and_true]
    exact wordOf_mk 0 w k

/-- The outputs as raw values. -/
def outLeaves {w : Nat} : Outs → BitVec w × Bool → List RVal
  | .word, r => [.leaf r.1.toNat]
  | .bit, r => [.leaf r.2.toNat]
  | .both, r => [.leaf r.1.toNat, .leaf r.2.toNat]

/-- The instruction on raw inputs. -/
def mixFn (w n : Nat) (o : Outs) (f : List (BitVec w) → List Bool → BitVec w × Bool) : Fn Nat := fun r _ => match r with
  | .prod vs => (.prod (outLeaves o (f (rawWords w n vs) (rawBits n vs))), [])
  | r => (r, [])

theorem mix_computes (P : Process) (w n m : Nat) (o : Outs) (f : List (BitVec w) → List Bool → BitVec w × Bool) : Computes P (mixIr w n m o f) (mixFn w n o f) := by
  refine ⟨8, mixFields w 1 n m, 9, o.fields w, rfl, rfl, ?_⟩
  intro vs bb h
  obtain ⟨e1, e2⟩ := mix_dict w 1 n m vs h
  refine ⟨_, rfl, ?_, ?_, ?_⟩
  · cases o
    · exact ⟨BitVec.isLt _, trivial⟩
    · exact ⟨bit_has _ _, trivial⟩
    · exact ⟨BitVec.isLt _, bit_has _ _, trivial⟩
  · simp only [mixIr]
    rw [e1, e2]
    cases o
    · exact ⟨WIr.new_word P w _, trivial⟩
    · exact ⟨new_bit P _, trivial⟩
    · exact ⟨WIr.new_word P w _, new_bit P _, trivial⟩
  · cases o <;> rfl

theorem inst_buildable (w : Nat) (hw : 0 < w) : Buildable (instT w) := by
  have h1 := op_width
  have h2 := alu_width w
  refine ⟨by simp [Fields.toList], .inl ?_, ⟨by simp [Fields.toList], .inl ?_, by simp [Buildables, opT, Buildable]⟩, by simp [Buildables, Buildable]⟩
  · simp [Fields.toList, h2, width]
    omega
  · simp [Fields.toList, h1, width, hw]

theorem setup (P : Process) (enc : IEnc) {w n m : Nat} (hw : 0 < w) (hn : 0 < n + m) (o : Outs) (f : List (BitVec w) → List Bool → BitVec w × Bool) :
    Setup P (problem P.asm enc w n m o f).ir (problem P.asm enc w n m o f).arch (mixFn w n o f) (peFn w) (fun _ => [1]) := by
  refine ⟨mix_computes P w n m o f, pe_computes P w, ⟨⟨mix_nodup w 1 n m, mix_wf w 1 n m⟩, ?_⟩, ?_, ?_, ?_, ?_, ?_, rfl⟩
  · refine ⟨?_, .inl ?_, mix_build w 1 n m⟩
    · intro h
      have : ((1 : Nat), if 1 < 1 + n then Ty.bv 0 w else .bit 0) ∈ (mixFields w 1 n m).toList := mix_mem.mpr ⟨Nat.le_refl _, by omega, rfl⟩
      rw [h] at this
      cases this
    · rintro ⟨k, t⟩ hk
      obtain ⟨_, _, rfl⟩ := mix_mem.mp hk
      simp only
      split <;> simp [width, hw]
  · have h1 := inst_wf w
    have h2 := inst_buildable w hw
    have h3 := inst_width w
    simp [pe, problem, dIn, WF, WFs, Buildable, Buildables, Fields.toList, width, h1, h2, h3, hw]
  · cases o <;> simp [problem, mixIr, Outs.fields, WF, WFs, Buildable, Buildables, Fields.toList, UnionFree, UnionFrees, width, hw]
  · simp [pe, problem, dOut, WF, WFs, Buildable, Buildables, Fields.toList, UnionFree, UnionFrees, width, hw]
  · refine ⟨by simp [problem, mixIr], by simp, by simp [problem, mixIr], fun r bb h => ⟨?_, by simp [problem, mixIr]⟩⟩
    simp only [mixFn, problem, mixIr, List.map_nil]
    split <;> rfl
  · refine ⟨by simp [problem, pe], by simp, by simp [problem, pe], fun r bb h => ⟨?_, by simp [problem, pe]⟩⟩
    simp only [peFn, problem, pe, List.map_nil]
    split <;> rfl

theorem shape (A : Ty → Except Err AsmObj) (enc : IEnc) (w n m : Nat) (o : Outs) (f : List (BitVec w) → List Bool → BitVec w × Bool) :
    InstProblem (problem A enc w n m o f) 0 (instT w) (mixFields w 1 n m) (o.fields w) (dIn w) (dOut w) := by
  refine ⟨⟨8, rfl⟩, ⟨9, rfl⟩, ⟨33, rfl⟩, ⟨34, rfl⟩, mix_flat w 1 n m, ?_, ?_, ?_, rfl, rfl, rfl, rfl, rfl⟩
  · intro k t h
    cases o <;> simp only [Outs.fields, Fields.toList, List.mem_cons, Prod.mk.injEq, List.not_mem_nil, or_false] at h
    · obtain ⟨_, rfl⟩ := h; trivial
    · obtain ⟨_, rfl⟩ := h; trivial
    · rcases h with ⟨_, rfl⟩ | ⟨_, rfl⟩ <;> trivial
  · intro k t h
    simp only [dIn, Fields.toList, List.mem_cons, Prod.mk.injEq, List.not_mem_nil, or_false] at h
    rcases h with ⟨_, rfl⟩ | ⟨_, rfl⟩ | ⟨_, rfl⟩ | ⟨_, rfl⟩ | ⟨_, rfl⟩ <;> trivial
  · intro k t h
    simp only [dOut, Fields.toList, List.mem_cons, Prod.mk.injEq, List.not_mem_nil, or_false] at h
    rcases h with ⟨_, rfl⟩ | ⟨_, rfl⟩ <;> trivial

end Peak.LPe
