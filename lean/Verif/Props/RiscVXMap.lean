import Verif.Spec.RiscVXMap
import Verif.Lemmas.RiscVXMapPe
import Verif.Props.RiscVMMap
/-!
# C85: mapping to the RISC-V simulator that counts bits
-/

namespace Peak.RXM
open Peak Peak.Spec
open Peak.RV (Word Idx SmtRF smtFile BitInst ExtInst Inst ones leading trailing)
open Peak.RMap (kRd kData kTag oOP oIMM oLUI oAUIPC oJAL oJALR oBranch oLoad oStore aluT opT immT luiT auipcT jalT jalrT brT ldT stT bvVal hasAt_of rawAt_of bv_raw bv_has raw_prod raw_cons raw_nil port envOf
  row_get row_len row_env mod32 Operand regOf opd opd_val opd_cases)
open Peak.RMM (IsReg Wires wires_of of_wires srcOf outKey outOf of_out sel port_of reg_of wires_le wires_for)

/-! ## instructions as values -/

theorem of_hasAt : ∀ {fs : Fields} {k : Key} {v : Val}, fs.HasAt k v → ∃ t, (k, t) ∈ fs.toList ∧ t.Has v
  | .nil, _, _, h => h.elim
  | .cons k' t' fs, k, v, h => by
    simp only [Fields.HasAt] at h
    rcases h with ⟨rfl, h⟩ | h
    · exact ⟨t', by simp [Fields.toList], h⟩
    · obtain ⟨t, h1, h2⟩ := of_hasAt h
      exact ⟨t, by simp [Fields.toList, h1], h2⟩

/-- The option of a base instruction. -/
theorem base_parts (i : Inst) : ∃ k t v, RMap.instVal i = .sum k v ∧ (k, t) ∈ RMap.options ∧ t.Has v ∧ RMap.ofRaw (.sum k (rawOf t v)) = i := by
  have h1 := RMap.inst_has (opts := RMap.inOrder) (List.Perm.refl _) i
  have h2 := RMap.inst_raw (opts := RMap.inOrder) (List.Perm.refl _) i
  have h3 : ∃ k v, RMap.instVal i = .sum k v := by
    cases i <;> first | exact ⟨_, _, rfl⟩ | (rename_i o; cases o <;> exact ⟨_, _, rfl⟩)
  obtain ⟨k, v, e⟩ := h3
  rw [e] at h1 h2
  obtain ⟨t, m, h⟩ := of_hasAt h1
  refine ⟨k, t, v, e, m, h, ?_⟩
  have hr : rawOf (RMap.instT RMap.inOrder) (.sum k v) = .sum k (rawOf t v) :=
    congrArg (RVal.sum k) (rawAt_of (RMap.inst_wf (opts := RMap.inOrder) (List.Perm.refl _)).2.1 m)
  rw [hr] at h2
  exact h2

theorem base_key {k : Key} {t : Ty} (h : (k, t) ∈ RMap.options) : (k, t) ∈ options ∧ k ≠ oExt := by
  refine ⟨List.mem_append_left _ h, ?_⟩
  simp only [RMap.options, List.mem_cons, Prod.mk.injEq, List.not_mem_nil, or_false] at h
  rcases h with ⟨rfl, _⟩ | ⟨rfl, _⟩ | ⟨rfl, _⟩ | ⟨rfl, _⟩ | ⟨rfl, _⟩ | ⟨rfl, _⟩ | ⟨rfl, _⟩ | ⟨rfl, _⟩ | ⟨rfl, _⟩ <;> decide

theorem ext_mem : (oExt, extT) ∈ options := by simp [options]

theorem bit_rawV (t : BitInst) : ∃ c, rawOf bitT (.enum (bitMem t)) = .leaf c ∧ bitOf c = t :=
  ⟨encode bitT (.enum (bitMem t)), rfl, by cases t <;> rfl⟩
theorem bit_hasV (t : BitInst) : bitT.Has (.enum (bitMem t)) := by cases t <;> simp [bitT, Ty.Has, bitMem]

/-- An instruction is a value of the type. -/
theorem inst_has {opts : Fields} (ho : opts.toList.Perm options) (i : ExtInst) : (instT opts).Has (instVal i) := by
  have hn := (inst_wf ho).2.1
  cases i with
  | base i =>
    obtain ⟨k, t, v, e, m, h, _⟩ := base_parts i
    simp only [instVal, e]
    exact hasAt_of hn (ho.mem_iff.mpr (base_key m).1) h
  | Ext d s t => exact hasAt_of hn (ho.mem_iff.mpr ext_mem) ⟨⟨bv_has _, bv_has _, trivial⟩, bit_hasV t, trivial⟩

/-- Its bits decode to it. -/
theorem inst_raw {opts : Fields} (ho : opts.toList.Perm options) (i : ExtInst) : ofRaw (rawOf (instT opts) (instVal i)) = i := by
  have hn := (inst_wf ho).2.1
  cases i with
  | base i =>
    obtain ⟨k, t, v, e, m, _, h⟩ := base_parts i
    obtain ⟨m', hk⟩ := base_key m
    have hr : rawOf (instT opts) (.sum k v) = .sum k (rawOf t v) := congrArg (RVal.sum k) (rawAt_of hn (ho.mem_iff.mpr m'))
    simp only [instVal, e, hr, ofRaw, if_neg hk, h]
  | Ext d s t =>
    obtain ⟨c, h, e⟩ := bit_rawV t
    have h0 : rawOf (instT opts) (instVal (.Ext d s t)) = .sum oExt (.prod [.prod [.leaf d.toNat, .leaf s.toNat], .leaf c]) := by
      refine congrArg (RVal.sum oExt) ((rawAt_of hn (ho.mem_iff.mpr ext_mem)).trans ?_)
      simp only [extT, eT, raw_prod, raw_cons, raw_nil, bv_raw, h]
    rw [h0]
    simp [ofRaw, e]

/-! ## what instructions compute -/

theorem counter_counts (t : BitInst) (w : Word) : RV.bitCounter t w = .ok (.ofNat 32 (counted t w)) := by
  have fin : ∀ {n : Nat}, (∃ r : Word, RV.bitCounter t w = .ok r ∧ r.toNat = n) → RV.bitCounter t w = .ok (.ofNat 32 n) := by
    rintro n ⟨r, h1, rfl⟩
    rw [h1, BitVec.ofNat_toNat, BitVec.setWidth_eq]
  cases t
  · exact fin (RV.C46_popcnt w)
  · exact fin (RV.C46_cntlz w)
  · exact fin (RV.C46_cnttz w)

theorem outs_base (i : Inst) (pc a b z : Word) : outs (.base i) pc a b z = RMM.outs (.base i) pc a b z := rfl

theorem outs_ext (d s : Idx) (t : BitInst) (pc a b z : Word) :
    outs (.Ext d s t) pc a b z = (pc + 4, if d ≠ 0 then .ofNat 32 (counted t (if s ≠ 0 then a else 0)) else z) := by
  have h := mappable_ext d s (pc := pc) (a := a) (b := b) (z := z) (counter_counts t (if s ≠ 0 then a else 0))
  simp only [outs, h]

/-! ## wirings -/

/-- The bits of an output. -/
theorem out_bits (o : Bool) (x y : Word) : prodBits dOut (.prod [.leaf x.toNat, .leaf y.toNat]) (outKey o) = (sel o (x, y)).toNat := RMM.out_bits o x y

/-- With this instruction, this output and these wires the simulator computes `f`. -/
def Does (n : Nat) (f : List Word → Word) (i : ExtInst) (o : Bool) (s0 s1 s2 : Option Nat) : Prop :=
  ∀ xs z0 z1 z2 z, xs.length = n → f xs = sel o (outs i (port s0 xs z0) (port s1 xs z1) (port s2 xs z2) z)

/-- What the mapper requires, in terms of instructions and wires. -/
theorem does_of {n : Nat} {f : List Word → Word} {r : RVal} {src out : Key → Option Key} (h : ComputesWith (WIr.wordFn 32 f) peFn (wordFields 32 1 n) (.cons 0 (.bv 0 32) .nil) dIn dOut r src out) :
    Wires n (src 1) (src 2) (src 3) ∧ ∃ o, Does n f (ofRaw r) o (src 1) (src 2) (src 3) := by
  obtain ⟨hS, hO, h⟩ := h
  obtain ⟨hW, h4⟩ := wires_of hS
  refine ⟨hW, ?_⟩
  obtain ⟨o, hout⟩ : ∃ o, out (outKey o) = some 0 := by
    obtain ⟨o, ho, hout, _⟩ := hO.once 0 (.bv 0 32) (by simp [Fields.toList])
    simp only [dOut, Fields.toList, List.map_cons, List.map_nil, List.mem_cons, List.not_mem_nil, or_false] at ho
    rcases ho with rfl | rfl
    · exact ⟨true, hout⟩
    · exact ⟨false, hout⟩
  refine ⟨o, ?_⟩
  intro xs z0 z1 z2 z hl
  have := h (envOf xs) (fun k => if k = (1 : Nat) then z0.toNat else if k = (2 : Nat) then z1.toNat else if k = (3 : Nat) then z2.toNat else z.toNat) (outKey o)
    (by cases o <;> simp [dOut, Fields.toList, outKey]) 0 hout
  simp only [WIr.wordFn, row_env hl] at this
  simp only [dIn, rowOf, peFn, out_bits, width, mod32] at this
  simp only [prodBits, fieldBits, if_true] at this
  have e := (BitVec.eq_of_toNat_eq this).symm
  rw [e]
  have p1 : BitVec.ofNat 32 (wired src (envOf xs) (fun k => if k = (1 : Nat) then z0.toNat else if k = (2 : Nat) then z1.toNat else if k = (3 : Nat) then z2.toNat else z.toNat) 1) = port (src 1) xs z0 := by
    simp only [wired]
    cases src 1 with
    | none => simp [port]
    | some q => simp [port, envOf]
  have p4 : BitVec.ofNat 32 (wired src (envOf xs) (fun k => if k = (1 : Nat) then z0.toNat else if k = (2 : Nat) then z1.toNat else if k = (3 : Nat) then z2.toNat else z.toNat) 4) = z := by
    simp [wired, h4]
  have p2 : BitVec.ofNat 32 (wired src (envOf xs) (fun k => if k = (1 : Nat) then z0.toNat else if k = (2 : Nat) then z1.toNat else if k = (3 : Nat) then z2.toNat else z.toNat) 2) = port (src 2) xs z1 := by
    simp only [wired]
    cases src 2 with
    | none => simp [port]
    | some q => simp [port, envOf]
  have p3 : BitVec.ofNat 32 (wired src (envOf xs) (fun k => if k = (1 : Nat) then z0.toNat else if k = (2 : Nat) then z1.toNat else if k = (3 : Nat) then z2.toNat else z.toNat) 3) = port (src 3) xs z2 := by
    simp only [wired]
    cases src 3 with
    | none => simp [port]
    | some q => simp [port, envOf]
  rw [p1, p2, p3, p4]

theorem of_does {n : Nat} {f : List Word → Word} {r : RVal} {o : Bool} {s0 s1 s2 : Option Nat} (hW : Wires n s0 s1 s2) (h : Does n f (ofRaw r) o s0 s1 s2) :
    ComputesWith (WIr.wordFn 32 f) peFn (wordFields 32 1 n) (.cons 0 (.bv 0 32) .nil) dIn dOut r (srcOf s0 s1 s2) (outOf o) := by
  refine ⟨of_wires hW, of_out o, ?_⟩
  intro x z k hk q hq
  have ek : k = outKey o ∧ q = 0 := by
    simp only [outOf] at hq
    split at hq
    · cases hq
      exact ⟨‹_›, rfl⟩
    · cases hq
  obtain ⟨rfl, rfl⟩ := ek
  have e := h ((rowOf (wordFields 32 1 n) x).map (WIr.leafWord 32)) (.ofNat 32 (z 1)) (.ofNat 32 (z 2)) (.ofNat 32 (z 3)) (.ofNat 32 (z 4)) (row_len x n 1)
  simp only [WIr.wordFn, e]
  simp only [dIn, rowOf, peFn, out_bits, width, mod32]
  simp only [prodBits, fieldBits, if_true]
  rw [port_of (k := 1) (s := s0) x z rfl (fun q hq => ⟨(hW.r0 q hq).1, (hW.r0 q hq).2.1⟩), port_of (k := 2) (s := s1) x z rfl (fun q hq => ⟨(hW.r1 q hq).1, (hW.r1 q hq).2.1⟩), port_of (k := 3) (s := s2) x z rfl hW.r2]
  rfl

/-! ## from instructions to functions and back -/

theorem of_base {n : Nat} {S : RMM.Shape} (hb : S.Base) (h : S.Encodable n) : ∃ s : Shape, s.Encodable n ∧ ∀ xs, S.val xs = s.val xs := by
  cases S with
  | op o a b =>
    cases o with
    | muldiv o => exact absurd rfl (hb o a b)
    | alu o =>
      refine ⟨.op o a b, ⟨h.1, ?_⟩, fun xs => rfl⟩
      rcases h.2 with h | h | ⟨v, t, hv, e⟩ | ⟨v, t, hv, e⟩
      · exact .inl h
      · exact .inr (.inl h)
      · injection e with e
        exact .inr (.inr (.inl ⟨v, t, hv, e⟩))
      · injection e with e
        exact .inr (.inr (.inr ⟨v, t, hv, e⟩))
  | upper v => exact ⟨.upper v, h, fun xs => rfl⟩
  | pcUpper i v => exact ⟨.pcUpper i v, h, fun xs => rfl⟩
  | next i => exact ⟨.next i, h, fun xs => rfl⟩
  | jump i v => exact ⟨.jump i v, h, fun xs => rfl⟩
  | target a v => exact ⟨.target a v, h, fun xs => rfl⟩
  | branch c a b i v => exact ⟨.branch c a b i v, h, fun xs => rfl⟩

theorem to_base {n : Nat} {s : Shape} (h : s.Encodable n) : (∃ t a, s = .count t a) ∨ ∃ S : RMM.Shape, S.Base ∧ S.Encodable n ∧ ∀ xs, s.val xs = S.val xs := by
  cases s with
  | count t a => exact .inl ⟨t, a, rfl⟩
  | op o a b =>
    refine .inr ⟨.op (.alu o) a b, (fun _ _ _ e => by cases e), ⟨h.1, ?_⟩, fun xs => rfl⟩
    rcases h.2 with h | h | ⟨v, t, h, e⟩ | ⟨v, t, h, e⟩
    · exact .inl h
    · exact .inr (.inl h)
    · exact .inr (.inr (.inl ⟨v, t, h, by rw [e]⟩))
    · exact .inr (.inr (.inr ⟨v, t, h, by rw [e]⟩))
  | upper v => exact .inr ⟨.upper v, (fun _ _ _ e => by cases e), h, fun xs => rfl⟩
  | pcUpper i v => exact .inr ⟨.pcUpper i v, (fun _ _ _ e => by cases e), h, fun xs => rfl⟩
  | next i => exact .inr ⟨.next i, (fun _ _ _ e => by cases e), h, fun xs => rfl⟩
  | jump i v => exact .inr ⟨.jump i v, (fun _ _ _ e => by cases e), h, fun xs => rfl⟩
  | target a v => exact .inr ⟨.target a v, (fun _ _ _ e => by cases e), h, fun xs => rfl⟩
  | branch c a b i v => exact .inr ⟨.branch c a b i v, (fun _ _ _ e => by cases e), h, fun xs => rfl⟩

theorem fits_of {n : Nat} {f : List Word → Word} {i : ExtInst} {o : Bool} {s0 s1 s2 : Option Nat} (hW : Wires n s0 s1 s2) (h : Does n f i o s0 s1 s2) : Fits n f := by
  cases i with
  | base i =>
    have h' : RMM.Does n f (.base i) o s0 s1 s2 := h
    obtain ⟨hn, S, h1, h2, h3⟩ := RMM.shape_of hW h'
    obtain ⟨s, e1, e2⟩ := of_base (h2 ⟨i, rfl⟩) h1
    exact ⟨hn, s, e1, fun xs hx => (h3 xs hx).trans (e2 xs)⟩
  | Ext d s t =>
    refine ⟨wires_le hW, ?_⟩
    have hL : (List.replicate n (0 : Word)).length = n := List.length_replicate
    have h01 : ¬ (0 : Word) = 1 := by decide
    cases o with
    | true =>
      cases e : s0 with
      | none =>
        have e1 := (h (List.replicate n 0) 0 0 0 0 hL).symm.trans (h (List.replicate n 0) 1 0 0 0 hL)
        simp only [sel, if_true, outs_ext, e] at e1
        exact absurd ((BitVec.add_left_inj _).mp e1) h01
      | some q =>
        have hq := hW.r0 q e
        refine ⟨.next (q - 1), (by show q - 1 < n; omega), fun xs hx => ?_⟩
        rw [h xs 0 0 0 0 hx, e]
        simp only [sel, if_true, outs_ext, Shape.val, RV.add4]
        rfl
    | false =>
      have hd : d ≠ 0 := by
        intro hd
        have e1 := (h (List.replicate n 0) 0 0 0 0 hL).symm.trans (h (List.replicate n 0) 0 0 0 1 hL)
        simp only [sel, outs_ext, hd] at e1
        exact h01 e1
      refine ⟨.count t (opd s s1), reg_of (fun k hk => ⟨(hW.r1 k hk).1, (hW.r1 k hk).2.1⟩), fun xs hx => ?_⟩
      rw [h xs 0 0 0 0 hx]
      show (outs _ _ _ _ _).2 = _
      rw [outs_ext]
      simp only [if_pos hd, opd_val, Shape.val]

theorem of_fits {n : Nat} {f : List Word → Word} (h : Fits n f) : ∃ i o s0 s1 s2, Wires n s0 s1 s2 ∧ Does n f i o s0 s1 s2 := by
  obtain ⟨hn, s, hs, hf⟩ := h
  rcases to_base hs with ⟨t, a, rfl⟩ | ⟨S, h1, h2, h3⟩
  · obtain ⟨s0, s1, s2, hw, _, v1, _⟩ := wires_for hn (p := .zero) (b := .zero) (.inl rfl) hs (.inl rfl) (fun j e => by cases e) (fun j e => by cases e) (fun j _ e => by cases e)
    refine ⟨.Ext 1 (regOf a) t, false, s0, s1, s2, hw, fun xs z0 z1 z2 z hl => ?_⟩
    show _ = (outs _ _ _ _ _).2
    rw [hf xs hl, outs_ext, v1]
    rfl
  · obtain ⟨i, o, s0, s1, s2, hb, hw, hd⟩ := RMM.of_shape hn h2 (fun xs hx => (hf xs hx).trans (h3 xs))
    obtain ⟨j, rfl⟩ := hb h1
    exact ⟨.base j, o, s0, s1, s2, hw, hd⟩

theorem inst_accepts {opts : Fields} (ho : opts.toList.Perm options) (i : ExtInst) : RHas (instT opts) (rawOf (instT opts) (instVal i)) ∧
    Accepts (instT opts) (rawCode (instT opts) (rawOf (instT opts) (instVal i))) := by
  obtain ⟨h1, h2⟩ := C38_rawOf (instT opts) (instVal i) (inst_wf ho) (inst_has ho i)
  rw [h2]
  exact ⟨h1, Acc.accepts_of_reads _ _ _ (encode_spec _ (inst_wf ho) _ (inst_has ho i)).2⟩

theorem can_iff {opts : Fields} (ho : opts.toList.Perm options) {n : Nat} {f : List Word → Word} :
    CanComputeAccepted (WIr.wordFn 32 f) peFn (instT opts) (wordFields 32 1 n) (.cons 0 (.bv 0 32) .nil) dIn dOut ↔ Fits n f := by
  constructor
  · rintro ⟨r, src, out, _, _, h⟩
    obtain ⟨h1, h2⟩ := does_of h
    obtain ⟨o, h2⟩ := h2
    exact fits_of h1 h2
  · intro h
    obtain ⟨i, o, s0, s1, s2, h1, h2⟩ := of_fits h
    obtain ⟨a, b⟩ := inst_accepts ho i
    exact ⟨_, _, _, a, b, of_does h1 (by rw [inst_raw ho]; exact h2)⟩

/-! ## theorems -/

/-- C85: with an instruction of the ISA that counts bits, for any state of the caches of validators and any order of the options of `Inst`, the simulator of the SMT family, reading the bits of the
instruction, computes what it computes on the instruction. -/
theorem C85_agree (P : Process) (opts : Fields) (ho : opts.toList.Perm options) (i : ExtInst) (pc rs1 rs2 rd : Word) :
    ∃ x, AV.new P.asm (instT opts) (.raw (instVal i)) = .ok x ∧ smtCall P.asm x pc rs1 rs2 rd = mappableX i pc rs1 rs2 rd := by
  have hh := inst_has ho i
  obtain ⟨h1, h2⟩ := C38_rawOf (instT opts) (instVal i) (inst_wf ho) hh
  refine ⟨_, new_raw P (inst_wf ho) hh, ?_⟩
  have := call_of P ho h1 pc rs1 rs2 rd
  rw [h2, inst_raw ho] at this
  exact this

/-- C85: the mapper finds an instruction and wires for exactly the functions of words that one instruction computes, and the rule is correct; otherwise it returns None.  For any order of
the options of `Inst`, any encoding of formulas and any sound and complete solver. -/
theorem C85_mapped (P : Process) (hP : MildProcess P) (opts : Fields) (ho : opts.toList.Perm options) (enc : IEnc) (n : Nat) (hn : 0 < n) (f : List Word → Word)
    (solve : (MAsg Nat → Prop) → Option (MAsg Nat)) (hsat : ∀ φ a, solve φ = some a → φ a) (hcomp : ∀ φ a, φ a → ∃ a', solve φ = some a') (a0 : MAsg Nat) :
    (Fits n f → ∃ r, mapSolve P.asm (problem P.asm opts enc n f) solve a0 = .ok (some r) ∧ IsMapping P.asm (problem P.asm opts enc n f) r ∧
      RuleRight P (wordIr 32 n f) (pe P.asm opts) r) ∧
    (¬ Fits n f → mapSolve P.asm (problem P.asm opts enc n f) solve a0 = .ok none) := by
  have key := C33_instruction_known P (problem P.asm opts enc n f) (WIr.wordFn 32 f) peFn (fun _ => [1]) 0 (instT opts) (wordFields 32 1 n) (.cons 0 (.bv 0 32) .nil) dIn dOut
    (shape P.asm opts enc n f) (setup P ho enc hn f) (pe_total P ho) (known hP ho) (hP.leaves (inst_wf ho) (inst_mild ho)) solve hsat hcomp a0
  rw [can_iff ho] at key
  exact right_of (setup P ho enc hn f) key

/-- C85: the same with `simple_formula=True`. -/
theorem C85_mapped_simple (P : Process) (hP : MildProcess P) (opts : Fields) (ho : opts.toList.Perm options) (enc : IEnc) (n : Nat) (hn : 0 < n) (f : List Word → Word)
    (solve : (SAsg Nat → Prop) → Option (SAsg Nat)) (hsat : ∀ φ a, solve φ = some a → φ a) (hcomp : ∀ φ a, φ a → ∃ a', solve φ = some a') (a0 : SAsg Nat) :
    (Fits n f → ∃ r, simpleSolve P.asm (problem P.asm opts enc n f) solve a0 = .ok (some r) ∧ IsMapping P.asm (problem P.asm opts enc n f) r ∧
      RuleRight P (wordIr 32 n f) (pe P.asm opts) r) ∧
    (¬ Fits n f → simpleSolve P.asm (problem P.asm opts enc n f) solve a0 = .ok none) := by
  have key := C55_instruction_known_plain P (problem P.asm opts enc n f) (WIr.wordFn 32 f) peFn (fun _ => [1]) 0 (instT opts) (wordFields 32 1 n) (.cons 0 (.bv 0 32) .nil) dIn dOut
    (shape P.asm opts enc n f) (setup P ho enc hn f) (pe_total P ho) (pe_boxes P.asm opts) (known hP ho) (hP.leaves (inst_wf ho) (inst_mild ho)) solve hsat hcomp a0
  rw [can_iff ho] at key
  exact right_of (setup P ho enc hn f) key

/-- The options in the order of their definitions. -/
def inOrder : Fields :=
  .cons oOP opT (.cons oIMM immT (.cons oLUI luiT (.cons oAUIPC auipcT (.cons oJAL jalT (.cons oJALR jalrT (.cons oBranch brT (.cons oLoad ldT (.cons oStore stT (.cons oExt extT .nil)))))))))

/-- Hypotheses: the empty process, and the options in order. -/
example : MildProcess ⟨fun _ => []⟩ ∧ inOrder.toList.Perm options := ⟨(by intro n t h; cases h), List.Perm.refl _⟩

theorem count_fits (t : BitInst) : Fits 1 (fun xs => .ofNat 32 (counted t (xs[0]?.getD 0))) :=
  ⟨by decide, .count t (.input 0), .inr ⟨0, by decide, rfl⟩, fun _ _ => rfl⟩

/-- The three counts are mapped; no function of four words is. -/
example (P : Process) (hP : MildProcess P) (opts : Fields) (ho : opts.toList.Perm options) (enc : IEnc) (solve : (MAsg Nat → Prop) → Option (MAsg Nat))
    (hsat : ∀ φ a, solve φ = some a → φ a) (hcomp : ∀ φ a, φ a → ∃ a', solve φ = some a') (a0 : MAsg Nat) (t : BitInst) :
    (∃ r, mapSolve P.asm (problem P.asm opts enc 1 (fun xs => .ofNat 32 (counted t (xs[0]?.getD 0)))) solve a0 = .ok (some r)) ∧
    ∀ f, mapSolve P.asm (problem P.asm opts enc 4 f) solve a0 = .ok none := by
  obtain ⟨r, h, _⟩ := (C85_mapped P hP opts ho enc 1 (by decide) _ solve hsat hcomp a0).1 (count_fits t)
  exact ⟨⟨r, h⟩, fun f => (C85_mapped P hP opts ho enc 4 (by decide) f solve hsat hcomp a0).2 (fun h => absurd h.1 (by decide))⟩

end Peak.RXM
