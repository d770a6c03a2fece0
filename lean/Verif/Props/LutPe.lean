import Verif.Spec.RuleRight
import Verif.Lemmas.LutPe
import Verif.Props.InstMap
import Verif.Props.AssembledADT
import Verif.Props.Blind
/-!
# C63: the PE of `examples/PE_lut`
-/

namespace Peak.LPe
open Peak Peak.Spec

/-! ## the PE -/

theorem lut_bit (lut : BitVec 8) (b0 b1 b2 : Bool) : lutCall lut b0 b1 b2 = goldBit lut.toNat b0 b1 b2 := by
  have h : ∀ (k : Nat) (_ : k < 8), ((lut >>> ((BitVec.ofNat 3 k).setWidth 8)) &&& 1)[0] = lut.toNat.testBit k := by
    intro k hk
    have e : ((BitVec.ofNat 3 k).setWidth 8).toNat = k := by
      simp only [BitVec.toNat_setWidth, BitVec.toNat_ofNat]
      omega
    simp [BitVec.getElem_and, BitVec.ushiftRight_eq', e, BitVec.getLsbD]
  simp only [lutCall, goldBit]
  exact h _ (by cases b0 <;> cases b1 <;> cases b2 <;> decide)

/-- C63: what the PE returns, for every width, instruction and operands. -/
theorem C63_pe {w : Nat} (i : Inst w) (d0 d1 : BitVec w) (b0 b1 b2 : Bool) :
    (pyCall i d0 d1 b0 b1 b2).1.toNat = goldWord w i.op i.imm.toNat d0.toNat d1.toNat b0 ∧ (pyCall i d0 d1 b0 b1 b2).2 = goldBit i.lut.toNat b0 b1 b2 := by
  refine ⟨?_, lut_bit _ _ _ _⟩
  cases h : i.op <;> simp [pyCall, aluCall, h, goldWord]
  cases b0 <;> rfl

/-- C63: the table is universal: every Boolean function of three bits is some table's. -/
theorem C63_universal (g : Bool → Bool → Bool → Bool) : ∃ lut : BitVec 8, ∀ b0 b1 b2, lutCall lut b0 b1 b2 = g b0 b1 b2 := by
  have key : ∀ e0 e1 e2 e3 e4 e5 e6 e7 : Bool, ∃ l : BitVec 8,
      lutCall l false false false = e0 ∧ lutCall l true false false = e1 ∧ lutCall l false true false = e2 ∧ lutCall l true true false = e3 ∧
      lutCall l false false true = e4 ∧ lutCall l true false true = e5 ∧ lutCall l false true true = e6 ∧ lutCall l true true true = e7 := by
    intro e0 e1 e2 e3 e4 e5 e6 e7
    refine ⟨.ofNat 8 (e0.toNat + 2 * e1.toNat + 4 * e2.toNat + 8 * e3.toNat + 16 * e4.toNat + 32 * e5.toNat + 64 * e6.toNat + 128 * e7.toNat), ?_⟩
    revert e0 e1 e2 e3 e4 e5 e6 e7
    decide +kernel
  obtain ⟨l, h0, h1, h2, h3, h4, h5, h6, h7⟩ := key (g false false false) (g true false false) (g false true false) (g true true false)
    (g false false true) (g true false true) (g false true true) (g true true true)
  refine ⟨l, ?_⟩
  intro b0 b1 b2
  cases b0 <;> cases b1 <;> cases b2 <;> assumption

theorem val_has {w : Nat} (i : Inst w) : (instT w).Has i.val := by
  cases h : i.op <;> simp [instT, aluT, opT, Inst.val, Op.mem, h, Ty.Has, Fields.HasAll, BV.ofNat_size]

/-- The code of an operation. -/
def Op.code : Op → Nat
  | .imm => 1
  | .add => 2
  | .mux => 6

theorem raw_val {w : Nat} (i : Inst w) : rawOf (instT w) i.val = .prod [.prod [.leaf i.op.code, .leaf i.imm.toNat], .leaf i.lut.toNat] := by
  have ho : rawOf opT (.enum i.op.mem) = .leaf i.op.code := by
    cases i.op <;> exact congrArg RVal.leaf (by decide +kernel)
  have h1 : i.imm.toNat % 2 ^ w = i.imm.toNat := Nat.mod_eq_of_lt i.imm.isLt
  have h2 : i.lut.toNat % 256 = i.lut.toNat := Nat.mod_eq_of_lt i.lut.isLt
  simp [instT, aluT, Inst.val, rawOf, rawOfAll, encode, BV.ofNat_val, ho, h1, h2]

theorem val_py {w : Nat} (i : Inst w) (d0 d1 : BitVec w) (b0 b1 b2 : Bool) :
    val i.op.code i.imm.toNat i.lut.toNat d0 d1 b0 b1 b2 = pyCall i d0 d1 b0 b1 b2 := by
  simp only [val, pyCall, BitVec.ofNat_toNat, BitVec.setWidth_eq]
  cases i.op <;> rfl

/-- C63: in the SMT family the PE on an assembled instruction returns what it returns in Python on the instruction. -/
theorem C63_agree (P : Process) {w : Nat} (i : Inst w) (d0 d1 : BitVec w) (b0 b1 b2 : Bool) :
    ∃ x, AV.new P.asm (instT w) (.raw i.val) = .ok x ∧ smtCall P.asm w x d0 d1 b0 b1 b2 = .ok (pyCall i d0 d1 b0 b1 b2) := by
  have hh := val_has i
  obtain ⟨h1, h2⟩ := C38_rawOf (instT w) i.val (inst_wf w) hh
  refine ⟨_, new_raw P (inst_wf w) hh, ?_⟩
  have hlt := SB.code_lt (instT w) _ (inst_wf w) h1
  rw [h2, inst_width] at hlt
  rw [call_num P hlt, ← h2]
  rw [raw_val] at h1 ⊢
  obtain ⟨e1, e2, e3⟩ := bits_raw h1
  rw [e1, e2, e3]
  exact congrArg Except.ok (val_py i d0 d1 b0 b1 b2)

/-- A multiplexer beside the majority of three bits. -/
example (d0 d1 : BitVec 8) : pyCall ⟨.mux, 0, 0xE8#8⟩ d0 d1 true false true = (d0, true) ∧ pyCall ⟨.mux, 0, 0xE8#8⟩ d0 d1 false false true = (d1, false) := by
  constructor <;> rfl

/-! ## mapping -/

theorem has_val {w : Nat} {v : Val} (h : (instT w).Has v) : ∃ i : Inst w, v = i.val := by
  cases v with
  | prod vs =>
    match vs, h with
    | [v0, v1], ⟨h0, h1, _⟩ =>
      cases v0 with
      | prod us =>
        match us, h0 with
        | [u0, u1], ⟨k0, k1, _⟩ =>
          cases v1 with
          | bits l =>
            cases u1 with
            | bits im =>
              cases u0 with
              | enum e =>
                simp only [Ty.Has] at h1 k1
                obtain ⟨sz, lv, hl⟩ := l
                obtain ⟨sz', iv, hi⟩ := im
                simp only at h1 k1
                subst h1 k1
                have hop : ∃ op : Op, e = op.mem := by
                  simp only [opT, Ty.Has, List.mem_cons, List.not_mem_nil, or_false] at k0
                  rcases k0 with rfl | rfl | rfl
                  · exact ⟨.imm, rfl⟩
                  · exact ⟨.add, rfl⟩
                  · exact ⟨.mux, rfl⟩
                obtain ⟨op, rfl⟩ := hop
                refine ⟨⟨op, ⟨iv, hi⟩, ⟨lv, hl⟩⟩, ?_⟩
                simp [Inst.val, BV.ofNat, Nat.mod_eq_of_lt hi, Nat.mod_eq_of_lt hl]
              | _ => simp [opT, Ty.Has] at k0
            | _ => simp [Ty.Has] at k1
          | _ => simp [Ty.Has] at h1
      | _ => simp [aluT, Ty.Has] at h0
  | _ => simp [instT, Ty.Has] at h

/-- The words and the bits an assignment gives to the inputs. -/
def wordsOf (w n : Nat) (x : Nat → Nat) : List (BitVec w) := (List.range n).map (fun j => .ofNat w (x (1 + j)))
def bitsOf (n m : Nat) (x : Nat → Nat) : List Bool := (List.range m).map (fun j => (x (1 + n + j)).testBit 0)

theorem row_bits (x : Nat → Nat) : ∀ i m, (rowOf (bitFields i m) x).map leafBit = (List.range m).map (fun j => (x (i + j)).testBit 0)
  | _, 0 => rfl
  | i, m + 1 => by
    have ih := row_bits x (i + 1) m
    simp only [bitFields, rowOf, List.map_cons, ih, List.range_succ_eq_map, List.map_map]
    simp [leafBit, width, Nat.testBit_zero, Function.comp_def, Nat.add_assoc, Nat.add_comm 1]

theorem row_mix (w : Nat) (x : Nat → Nat) : ∀ i n m, rawWords w n (rowOf (mixFields w i n m) x) = (List.range n).map (fun j => .ofNat w (x (i + j))) ∧
    rawBits n (rowOf (mixFields w i n m) x) = (List.range m).map (fun j => (x (i + n + j)).testBit 0)
  | i, 0, m => ⟨rfl, by simp only [rawBits, List.drop_zero, mixFields, row_bits, Nat.add_zero]⟩
  | i, n + 1, m => by
    obtain ⟨h1, h2⟩ := row_mix w x (i + 1) n m
    simp only [rawWords, rawBits] at h1 h2
    simp only [mixFields, rowOf, rawWords, rawBits, List.take_succ_cons, List.drop_succ_cons, List.map_cons, h1, h2]
    constructor
    · rw [List.range_succ_eq_map]
      simp [WIr.leafWord, width, Function.comp_def, Nat.add_assoc, Nat.add_comm 1]
      apply BitVec.eq_of_toNat_eq
      simp
    · simp [Nat.add_assoc, Nat.add_comm 1]

def Outs.hasWord : Outs → Bool
  | .bit => false
  | _ => true
def Outs.hasBit : Outs → Bool
  | .word => false
  | _ => true

/-- What a port of the PE is given. -/
def portWord (w : Nat) (src : Nat → Option Nat) (x z : Nat → Nat) (k : Nat) : BitVec w := .ofNat w (wired src x z k)
def portBit (src : Nat → Option Nat) (x z : Nat → Nat) (k : Nat) : Bool := (wired src x z k).testBit 0

/-- The equations a mapping must satisfy. -/
def Solves {w : Nat} (n m : Nat) (o : Outs) (f : List (BitVec w) → List Bool → BitVec w × Bool) (i : Inst w) (src : Nat → Option Nat) : Prop :=
  ∀ x z : Nat → Nat,
    let r := pyCall i (portWord w src x z 1) (portWord w src x z 2) (portBit src x z 3) (portBit src x z 4) (portBit src x z 5)
    (o.hasWord = true → (f (wordsOf w n x) (bitsOf n m x)).1 = r.1) ∧ (o.hasBit = true → (f (wordsOf w n x) (bitsOf n m x)).2 = r.2)

theorem toNat_inj {a b : Bool} (h : a.toNat = b.toNat) : a = b := by cases a <;> cases b <;> simp_all

theorem pe_row {w : Nat} (i : Inst w) (src : Nat → Option Nat) (x z : Nat → Nat) : (peFn w (.prod (rawOf (instT w) i.val :: rowOf (dIn w) (wired src x z))) []).1 =
    (let r := pyCall i (portWord w src x z 1) (portWord w src x z 2) (portBit src x z 3) (portBit src x z 4) (portBit src x z 5)
     .prod [.leaf r.1.toNat, .leaf r.2.toNat]) := by
  rw [raw_val]
  simp only [dIn, rowOf, peFn, val_py, WIr.leafWord, leafBit, width, portWord, portBit]
  have e1 : ∀ k, BitVec.ofNat w (wired src x z k % 2 ^ w) = .ofNat w (wired src x z k) := by
    intro k
    apply BitVec.eq_of_toNat_eq
    simp
  have e2 : ∀ k, (wired src x z k % 2 ^ 1).testBit 0 = (wired src x z k).testBit 0 := by
    intro k
    simp [Nat.testBit_zero]
  simp only [e1, e2]

theorem computes_of {w n m : Nat} {o : Outs} {f : List (BitVec w) → List Bool → BitVec w × Bool} {i : Inst w} {src : Nat → Option Nat}
    (hS : IsAssignment (dIn w).toList (mixFields w 1 n m).toList src) (h : Solves n m o f i src) :
    ∃ out, ComputesWith (mixFn w n o f) (peFn w) (mixFields w 1 n m) (o.fields w) (dIn w) (dOut w) (rawOf (instT w) i.val) src out := by
  have hrow := fun x => row_mix w x 1 n m
  have key : ∀ out : Key → Option Key, IsAssignment (dOut w).toList (o.fields w).toList out →
      (∀ (x z : Nat → Nat), ∀ k ∈ (dOut w).toList.map (·.1), ∀ q, out k = some q →
        prodBits (dOut w) (.prod [.leaf (pyCall i (portWord w src x z 1) (portWord w src x z 2) (portBit src x z 3) (portBit src x z 4) (portBit src x z 5)).1.toNat,
          .leaf (pyCall i (portWord w src x z 1) (portWord w src x z 2) (portBit src x z 3) (portBit src x z 4) (portBit src x z 5)).2.toNat]) k =
        prodBits (o.fields w) (.prod (outLeaves o (f (wordsOf w n x) (bitsOf n m x)))) q) →
      ∃ out, ComputesWith (mixFn w n o f) (peFn w) (mixFields w 1 n m) (o.fields w) (dIn w) (dOut w) (rawOf (instT w) i.val) src out := by
    intro out hO he
    refine ⟨out, hS, hO, ?_⟩
    intro x z
    have := he x z
    simp only [pe_row, mixFn, hrow]
    exact this
  cases o with
  | word =>
    refine key (fun k => if k = 0 then some 0 else none) ⟨?_, ?_⟩ ?_
    · intro a t q ha hq
      simp only [dOut, Fields.toList, List.mem_cons, Prod.mk.injEq, List.not_mem_nil, or_false] at ha
      rcases ha with ⟨rfl, rfl⟩ | ⟨rfl, rfl⟩ <;> simp at hq
      subst hq
      simp [Outs.fields, Fields.toList]
    · intro q t hq
      simp only [Outs.fields, Fields.toList, List.mem_singleton, Prod.mk.injEq] at hq
      obtain ⟨rfl, rfl⟩ := hq
      exact ⟨0, by simp [dOut, Fields.toList]⟩
    · intro x z k hk q hq
      simp only [dOut, Fields.toList, List.map_cons, List.map_nil, List.mem_cons, List.not_mem_nil, or_false] at hk
      rcases hk with rfl | rfl <;> simp at hq
      subst hq
      simp [prodBits, dOut, fieldBits, Outs.fields, outLeaves, (h x z).1 rfl]
  | bit =>
    refine key (fun k => if k = 1 then some 0 else none) ⟨?_, ?_⟩ ?_
    · intro a t q ha hq
      simp only [dOut, Fields.toList, List.mem_cons, Prod.mk.injEq, List.not_mem_nil, or_false] at ha
      rcases ha with ⟨rfl, rfl⟩ | ⟨rfl, rfl⟩ <;> simp at hq
      subst hq
      simp [Outs.fields, Fields.toList]
    · intro q t hq
      simp only [Outs.fields, Fields.toList, List.mem_singleton, Prod.mk.injEq] at hq
      obtain ⟨rfl, rfl⟩ := hq
      exact ⟨1, by simp [dOut, Fields.toList]⟩
    · intro x z k hk q hq
      simp only [dOut, Fields.toList, List.map_cons, List.map_nil, List.mem_cons, List.not_mem_nil, or_false] at hk
      rcases hk with rfl | rfl <;> simp at hq
      subst hq
      simp [prodBits, dOut, fieldBits, Outs.fields, outLeaves, (h x z).2 rfl]
  | both =>
    refine key some ⟨?_, ?_⟩ ?_
    · intro a t q ha hq
      cases hq
      exact ha
    · intro q t hq
      exact ⟨q, List.mem_map_of_mem (f := (·.1)) hq, rfl, fun a _ h => Option.some.inj h⟩
    · intro x z k hk q hq
      cases hq
      simp only [dOut, Fields.toList, List.map_cons, List.map_nil, List.mem_cons, List.not_mem_nil, or_false] at hk
      rcases hk with rfl | rfl
      · simp [prodBits, dOut, fieldBits, Outs.fields, outLeaves, (h x z).1 rfl]
      · simp [prodBits, dOut, fieldBits, Outs.fields, outLeaves, (h x z).2 rfl]

theorem can_iff {w n m : Nat} (o : Outs) (f : List (BitVec w) → List Bool → BitVec w × Bool) :
    CanCompute (mixFn w n o f) (peFn w) (instT w) (mixFields w 1 n m) (o.fields w) (dIn w) (dOut w) ↔
      ∃ i src, IsAssignment (dIn w).toList (mixFields w 1 n m).toList src ∧ Solves n m o f i src := by
  have hrow := fun x => row_mix w x 1 n m
  constructor
  · rintro ⟨v, src, out, hv, hS, hO, h⟩
    obtain ⟨i, rfl⟩ := has_val hv
    refine ⟨i, src, hS, ?_⟩
    intro x z
    have h' := h x z
    simp only [pe_row, mixFn, hrow] at h'
    rw [← wordsOf, ← bitsOf] at h'
    have bt : ∀ q, out 0 = some q → (q, Ty.bv 0 w) ∈ (o.fields w).toList := fun q hq => hO.typed 0 _ q (by simp [dOut, Fields.toList]) hq
    have bb : ∀ q, out 1 = some q → (q, Ty.bit 0) ∈ (o.fields w).toList := fun q hq => hO.typed 1 _ q (by simp [dOut, Fields.toList]) hq
    constructor
    · intro ho
      have hin : ((0 : Nat), Ty.bv 0 w) ∈ (o.fields w).toList := by cases o <;> simp_all [Outs.hasWord, Outs.fields, Fields.toList]
      obtain ⟨a, ha, e, _⟩ := hO.once 0 _ hin
      simp only [dOut, Fields.toList, List.map_cons, List.map_nil, List.mem_cons, List.not_mem_nil, or_false] at ha
      rcases ha with rfl | rfl
      · have := h' 0 (by simp [dOut, Fields.toList]) 0 e
        cases o <;> simp [Outs.hasWord] at ho <;> simp [prodBits, dOut, fieldBits, Outs.fields, outLeaves] at this <;> exact (BitVec.eq_of_toNat_eq this).symm
      · have := bb 0 e
        cases o <;> simp [Outs.hasWord] at ho <;> simp [Outs.fields, Fields.toList] at this
    · intro ho
      cases o with
      | word => simp [Outs.hasBit] at ho
      | bit =>
        obtain ⟨a, ha, e, _⟩ := hO.once 0 (.bit 0) (by simp [Outs.fields, Fields.toList])
        simp only [dOut, Fields.toList, List.map_cons, List.map_nil, List.mem_cons, List.not_mem_nil, or_false] at ha
        rcases ha with rfl | rfl
        · have := bt 0 e
          simp [Outs.fields, Fields.toList] at this
        · have := h' 1 (by simp [dOut, Fields.toList]) 0 e
          simp [prodBits, dOut, fieldBits, Outs.fields, outLeaves] at this
          exact (toNat_inj this).symm
      | both =>
        obtain ⟨a, ha, e, _⟩ := hO.once 1 (.bit 0) (by simp [Outs.fields, Fields.toList])
        simp only [dOut, Fields.toList, List.map_cons, List.map_nil, List.mem_cons, List.not_mem_nil, or_false] at ha
        rcases ha with rfl | rfl
        · have := bt 1 e
          simp [Outs.fields, Fields.toList] at this
        · have := h' 1 (by simp [dOut, Fields.toList]) 1 e
          simp [prodBits, dOut, fieldBits, Outs.fields, outLeaves] at this
          exact (toNat_inj this).symm
  · rintro ⟨i, src, hS, h⟩
    obtain ⟨out, ho⟩ := computes_of hS h
    exact ⟨i.val, src, out, val_has i, ho⟩

/-- The assignment that gives these words and bits. -/
def envOf {w : Nat} (n : Nat) (xs : List (BitVec w)) (bs : List Bool) (k : Nat) : Nat :=
  if k < 1 + n then (xs[k - 1]?.getD 0).toNat else (bs[k - 1 - n]?.getD false).toNat

theorem testBit_toNat (b : Bool) : b.toNat.testBit 0 = b := by cases b <;> rfl

theorem words_env {w n : Nat} {xs : List (BitVec w)} (h : xs.length = n) (bs : List Bool) : wordsOf w n (envOf n xs bs) = xs := by
  apply List.ext_getElem
  · simp [wordsOf, h]
  · intro j h1 h2
    simp only [wordsOf, List.getElem_map, List.getElem_range, envOf]
    rw [if_pos (by omega)]
    simp [h2]

theorem bits_env {w n m : Nat} (xs : List (BitVec w)) {bs : List Bool} (h : bs.length = m) : bitsOf n m (envOf n xs bs) = bs := by
  apply List.ext_getElem
  · simp [bitsOf, h]
  · intro j h1 h2
    simp only [bitsOf, List.getElem_map, List.getElem_range, envOf]
    rw [if_neg (by omega)]
    have e : 1 + n + j - 1 - n = j := by omega
    simp only [e, List.getElem?_eq_getElem h2, Option.getD_some, testBit_toNat]

/-- What a wiring must satisfy. -/
theorem wiring {w n m : Nat} {src : Nat → Option Nat} (h : IsAssignment (dIn w).toList (mixFields w 1 n m).toList src) :
    (∀ k, k = 1 ∨ k = 2 → ∀ q, src k = some q → 1 ≤ q ∧ q ≤ n) ∧ (∀ k, k = 3 ∨ k = 4 ∨ k = 5 → ∀ q, src k = some q → 1 + n ≤ q ∧ q < 1 + n + m) ∧
    (∀ q, 1 ≤ q → q ≤ n → src 1 = some q ∨ src 2 = some q) ∧ (∀ q, 1 + n ≤ q → q < 1 + n + m → src 3 = some q ∨ src 4 = some q ∨ src 5 = some q) ∧
    (∀ q, src 1 = some q → src 2 ≠ some q) := by
  have typed : ∀ k q, k = 1 ∨ k = 2 → src k = some q → 1 ≤ q ∧ q < 1 + n + m ∧ Ty.bv 0 w = if q < 1 + n then .bv 0 w else .bit 0 := by
    intro k q hk hq
    refine mix_mem.mp (h.typed k _ q ?_ hq)
    rcases hk with rfl | rfl <;> simp [dIn, Fields.toList]
  have typedB : ∀ k q, k = 3 ∨ k = 4 ∨ k = 5 → src k = some q → 1 ≤ q ∧ q < 1 + n + m ∧ Ty.bit 0 = if q < 1 + n then .bv 0 w else .bit 0 := by
    intro k q hk hq
    refine mix_mem.mp (h.typed k _ q ?_ hq)
    rcases hk with rfl | rfl | rfl <;> simp [dIn, Fields.toList]
  have t1 : ∀ k, k = 1 ∨ k = 2 → ∀ q, src k = some q → 1 ≤ q ∧ q ≤ n := by
    intro k hk q hq
    obtain ⟨h1, h2, h3⟩ := typed k q hk hq
    by_cases hlt : q < 1 + n
    · omega
    · rw [if_neg hlt] at h3; cases h3
  have t2 : ∀ k, k = 3 ∨ k = 4 ∨ k = 5 → ∀ q, src k = some q → 1 + n ≤ q ∧ q < 1 + n + m := by
    intro k hk q hq
    obtain ⟨h1, h2, h3⟩ := typedB k q hk hq
    by_cases hlt : q < 1 + n
    · rw [if_pos hlt] at h3; cases h3
    · omega
  refine ⟨t1, t2, ?_, ?_, ?_⟩
  · intro q h1 h2
    obtain ⟨a, ha, e, _⟩ := h.once q (.bv 0 w) (mix_mem.mpr ⟨h1, by omega, by rw [if_pos (by omega)]⟩)
    simp only [dIn, Fields.toList, List.map_cons, List.map_nil, List.mem_cons, List.not_mem_nil, or_false] at ha
    rcases ha with rfl | rfl | rfl | rfl | rfl
    · exact .inl e
    · exact .inr e
    · have := t2 3 (by simp) q e; omega
    · have := t2 4 (by simp) q e; omega
    · have := t2 5 (by simp) q e; omega
  · intro q h1 h2
    obtain ⟨a, ha, e, _⟩ := h.once q (.bit 0) (mix_mem.mpr ⟨by omega, h2, by rw [if_neg (by omega)]⟩)
    simp only [dIn, Fields.toList, List.map_cons, List.map_nil, List.mem_cons, List.not_mem_nil, or_false] at ha
    rcases ha with rfl | rfl | rfl | rfl | rfl
    · have := t1 1 (by simp) q e; omega
    · have := t1 2 (by simp) q e; omega
    · exact .inl e
    · exact .inr (.inl e)
    · exact .inr (.inr e)
  · intro q h1 h2
    have hr := t1 1 (.inl rfl) q h1
    obtain ⟨a, _, _, hu⟩ := h.once q (.bv 0 w) (mix_mem.mpr ⟨hr.1, by omega, by rw [if_pos (by omega)]⟩)
    have e1 := hu 1 (by simp [dIn, Fields.toList]) h1
    have e2 := hu 2 (by simp [dIn, Fields.toList]) h2
    exact absurd (e1.trans e2.symm) (by decide)

/-! ### what is mapped fits -/

theorem bit_ok {w n m : Nat} {o : Outs} {f : List (BitVec w) → List Bool → BitVec w × Bool} {i : Inst w} {src : Nat → Option Nat}
    (hS : IsAssignment (dIn w).toList (mixFields w 1 n m).toList src) (h : Solves n m o f i src) (ho : o.hasBit = true) : BitOk n m (fun xs bs => (f xs bs).2) := by
  obtain ⟨_, t2, _⟩ := wiring hS
  refine ⟨fun bs => lutCall i.lut (portBit src (envOf (w := w) n [] bs) (fun _ => 0) 3) (portBit src (envOf (w := w) n [] bs) (fun _ => 0) 4) (portBit src (envOf (w := w) n [] bs) (fun _ => 0) 5), ?_⟩
  intro xs bs h1 h2
  have := (h (envOf n xs bs) (fun _ => 0)).2 ho
  rw [words_env h1, bits_env xs h2] at this
  simp only at this ⊢
  rw [this]
  have e : ∀ k, k = 3 ∨ k = 4 ∨ k = 5 → portBit src (envOf n xs bs) (fun _ => 0) k = portBit src (envOf (w := w) n [] bs) (fun _ => 0) k := by
    intro k hk
    simp only [portBit, wired]
    cases hq : src k with
    | none => rfl
    | some q =>
      have := t2 k hk q hq
      simp only [envOf]
      rw [if_neg (by omega), if_neg (by omega)]
  simp only [pyCall]
  rw [e 3 (by simp), e 4 (by simp), e 5 (by simp)]

theorem few {w n m : Nat} {src : Nat → Option Nat} (hS : IsAssignment (dIn w).toList (mixFields w 1 n m).toList src) : n ≤ 2 ∧ m ≤ 3 := by
  obtain ⟨_, _, o1, o2, _⟩ := wiring hS
  constructor
  · by_contra hc
    have h1 := o1 1 (by omega) (by omega)
    have h2 := o1 2 (by omega) (by omega)
    have h3 := o1 3 (by omega) (by omega)
    rcases h1 with h1 | h1 <;> rcases h2 with h2 | h2 <;> rcases h3 with h3 | h3 <;> simp_all
  · by_contra hc
    have h1 := o2 (1 + n) (by omega) (by omega)
    have h2 := o2 (2 + n) (by omega) (by omega)
    have h3 := o2 (3 + n) (by omega) (by omega)
    have h4 := o2 (4 + n) (by omega) (by omega)
    have inj : ∀ {k a b : Nat}, src k = some a → src k = some b → a = b := by
      intro k a b h h'
      rw [h] at h'
      exact Option.some.inj h'
    rcases h1 with h1 | h1 | h1 <;> rcases h2 with h2 | h2 | h2 <;> rcases h3 with h3 | h3 | h3 <;> rcases h4 with h4 | h4 | h4 <;>
      first
      | (have := inj h1 h2; omega)
      | (have := inj h1 h3; omega)
      | (have := inj h1 h4; omega)
      | (have := inj h2 h3; omega)
      | (have := inj h2 h4; omega)
      | (have := inj h3 h4; omega)

theorem one_ne {w : Nat} (hw : 0 < w) (a : BitVec w) : a + .ofNat w 0 ≠ a + .ofNat w 1 := by
  intro h
  have h' := congrArg (fun b => b - a) h
  have e : ∀ b : BitVec w, a + b - a = b := by intro b; rw [BitVec.add_comm, BitVec.add_sub_cancel]
  simp only [e] at h'
  have := congrArg BitVec.toNat h'
  have h1 : 1 % 2 ^ w = 1 := Nat.mod_eq_of_lt (Nat.one_lt_two_pow (by omega))
  simp [h1] at this

theorem zero_ne {w : Nat} (hw : 0 < w) : BitVec.ofNat w 0 ≠ BitVec.ofNat w 1 := by
  intro h
  exact one_ne hw 0 (by rw [h])

/-- Two words, in one order or the other. -/
theorem orders {w n m : Nat} {src : Nat → Option Nat} (hS : IsAssignment (dIn w).toList (mixFields w 1 n m).toList src) (h1 : src 1 ≠ none) (h2 : src 2 ≠ none) :
    n = 2 ∧ ((src 1 = some 1 ∧ src 2 = some 2) ∨ (src 1 = some 2 ∧ src 2 = some 1)) := by
  obtain ⟨t1, _, _, _, nd⟩ := wiring hS
  have hn := (few hS).1
  obtain ⟨p, hp⟩ := Option.ne_none_iff_exists'.mp h1
  obtain ⟨q, hq⟩ := Option.ne_none_iff_exists'.mp h2
  have a1 := t1 1 (.inl rfl) p hp
  have a2 := t1 2 (.inr rfl) q hq
  have hne : p ≠ q := by
    rintro rfl
    exact nd p hp hq
  have hn2 : n = 2 := by omega
  refine ⟨hn2, ?_⟩
  have : (p = 1 ∧ q = 2) ∨ (p = 2 ∧ q = 1) := by omega
  rcases this with ⟨rfl, rfl⟩ | ⟨rfl, rfl⟩
  · exact .inl ⟨hp, hq⟩
  · exact .inr ⟨hp, hq⟩

theorem env_two {w : Nat} (x y : BitVec w) (bs : List Bool) : BitVec.ofNat w (envOf 2 [x, y] bs 1) = x ∧ BitVec.ofNat w (envOf 2 [x, y] bs 2) = y := by
  simp [envOf]

theorem word_ok {w n m : Nat} (hw : 0 < w) {o : Outs} {f : List (BitVec w) → List Bool → BitVec w × Bool} {i : Inst w} {src : Nat → Option Nat}
    (hS : IsAssignment (dIn w).toList (mixFields w 1 n m).toList src) (h : Solves n m o f i src) (ho : o.hasWord = true) : WordOk n m (fun xs bs => (f xs bs).1) := by
  obtain ⟨t1, t2, _⟩ := wiring hS
  have hx : ∀ xs bs z, xs.length = n → bs.length = m → (f xs bs).1 =
      aluCall (i.op = .imm) (i.op = .add) i.imm (portWord w src (envOf n xs bs) z 1) (portWord w src (envOf n xs bs) z 2) (portBit src (envOf n xs bs) z 3) := by
    intro xs bs z h1 h2
    have := (h (envOf n xs bs) z).1 ho
    rw [words_env h1, bits_env xs h2] at this
    exact this
  cases hop : i.op with
  | imm =>
    left
    refine ⟨i.imm, fun xs bs h1 h2 => ?_⟩
    refine (hx xs bs (fun _ => 0) h1 h2).trans ?_
    simp [aluCall, hop]
  | add =>
    right; left
    have hx' : ∀ xs bs z, xs.length = n → bs.length = m → (f xs bs).1 = portWord w src (envOf n xs bs) z 1 + portWord w src (envOf n xs bs) z 2 := by
      intro xs bs z h1 h2
      rw [hx xs bs z h1 h2]
      simp [aluCall, hop]
    have n1 : src 1 ≠ none := by
      intro hn
      have a := hx' (List.replicate n 0) (List.replicate m false) (fun _ => 0) (by simp) (by simp)
      have b := hx' (List.replicate n 0) (List.replicate m false) (fun k => if k = 1 then 1 else 0) (by simp) (by simp)
      rw [a] at b
      have e : portWord w src (envOf n (List.replicate n (0 : BitVec w)) (List.replicate m false)) (fun _ => 0) 2 =
          portWord w src (envOf n (List.replicate n (0 : BitVec w)) (List.replicate m false)) (fun k => if k = 1 then 1 else 0) 2 := by
        simp only [portWord, wired]
        cases src 2 <;> rfl
      rw [← e] at b
      simp only [portWord, wired, hn, if_true] at b
      rw [BitVec.add_comm, BitVec.add_comm (BitVec.ofNat w 1)] at b
      exact one_ne hw _ b
    have n2 : src 2 ≠ none := by
      intro hn
      have a := hx' (List.replicate n 0) (List.replicate m false) (fun _ => 0) (by simp) (by simp)
      have b := hx' (List.replicate n 0) (List.replicate m false) (fun k => if k = 2 then 1 else 0) (by simp) (by simp)
      rw [a] at b
      have e : portWord w src (envOf n (List.replicate n (0 : BitVec w)) (List.replicate m false)) (fun _ => 0) 1 =
          portWord w src (envOf n (List.replicate n (0 : BitVec w)) (List.replicate m false)) (fun k => if k = 2 then 1 else 0) 1 := by
        simp only [portWord, wired]
        cases src 1 <;> rfl
      rw [← e] at b
      simp only [portWord, wired, hn, if_true] at b
      exact one_ne hw _ b
    obtain ⟨rfl, hs⟩ := orders hS n1 n2
    refine ⟨rfl, fun x y bs hb => ?_⟩
    have a := hx' [x, y] bs (fun _ => 0) rfl hb
    simp only
    rw [a]
    obtain ⟨e1, e2⟩ := env_two x y bs
    rcases hs with ⟨s1, s2⟩ | ⟨s1, s2⟩ <;> simp only [portWord, wired, s1, s2, e1, e2]
    exact BitVec.add_comm y x
  | mux =>
    right; right
    have hx' : ∀ xs bs z, xs.length = n → bs.length = m → (f xs bs).1 =
        if portBit src (envOf n xs bs) z 3 then portWord w src (envOf n xs bs) z 1 else portWord w src (envOf n xs bs) z 2 := by
      intro xs bs z h1 h2
      rw [hx xs bs z h1 h2]
      simp [aluCall, hop]
    have sel : ∀ (c : Bool) (xs : List (BitVec w)) (z : Nat → Nat), (z 3).testBit 0 = c → portBit src (envOf n xs (List.replicate m c)) z 3 = c := by
      intro c xs z hz
      simp only [portBit, wired]
      cases hq : src 3 with
      | none => exact hz
      | some q =>
        have := t2 3 (by simp) q hq
        simp only [envOf]
        rw [if_neg (by omega), List.getElem?_replicate_of_lt (by omega)]
        exact testBit_toNat c
    have n1 : src 1 ≠ none := by
      intro hn
      have a := hx' (List.replicate n 0) (List.replicate m true) (fun k => if k = 3 then 1 else 0) (by simp) (by simp)
      have b := hx' (List.replicate n 0) (List.replicate m true) (fun _ => 1) (by simp) (by simp)
      rw [sel true _ _ rfl, if_pos rfl] at a b
      rw [a] at b
      simp only [portWord, wired, hn] at b
      exact zero_ne hw (by simpa using b)
    have n2 : src 2 ≠ none := by
      intro hn
      have a := hx' (List.replicate n 0) (List.replicate m false) (fun k => if k = 3 then 0 else 1) (by simp) (by simp)
      have b := hx' (List.replicate n 0) (List.replicate m false) (fun _ => 0) (by simp) (by simp)
      rw [sel false _ _ rfl, if_neg (by simp)] at a b
      rw [a] at b
      simp only [portWord, wired, hn] at b
      exact zero_ne hw (by simpa using b.symm)
    obtain ⟨rfl, hs⟩ := orders hS n1 n2
    have n3 : src 3 ≠ none := by
      intro hn
      have a := hx' [.ofNat w 0, .ofNat w 1] (List.replicate m true) (fun _ => 0) (by simp) (by simp)
      have b := hx' [.ofNat w 0, .ofNat w 1] (List.replicate m true) (fun _ => 1) (by simp) (by simp)
      rw [a] at b
      obtain ⟨e1, e2⟩ := env_two (BitVec.ofNat w 0) (.ofNat w 1) (List.replicate m true)
      have t0 : ∀ c : Nat, portBit src (envOf 2 [BitVec.ofNat w 0, .ofNat w 1] (List.replicate m true)) (fun _ => c) 3 = c.testBit 0 := by
        intro c
        simp only [portBit, wired, hn]
      have c1 : Nat.testBit 1 0 = true := rfl
      have c0 : Nat.testBit 0 0 = false := rfl
      rw [t0, t0, c0, c1] at b
      rcases hs with ⟨s1, s2⟩ | ⟨s1, s2⟩ <;> simp only [portWord, wired, s1, s2, e1, e2, if_true, Bool.false_eq_true, if_false] at b
      · exact zero_ne hw b.symm
      · exact zero_ne hw b
    obtain ⟨q, hq⟩ := Option.ne_none_iff_exists'.mp n3
    have hr := t2 3 (by simp) q hq
    refine ⟨rfl, q - 3, by omega, ?_⟩
    have hb : ∀ (xs : List (BitVec w)) (bs : List Bool) (z : Nat → Nat), portBit src (envOf 2 xs bs) z 3 = bs[q - 3]?.getD false := by
      intro xs bs z
      simp only [portBit, wired, hq, envOf]
      rw [if_neg (by omega), testBit_toNat]
      rfl
    rcases hs with ⟨s1, s2⟩ | ⟨s1, s2⟩
    · left
      intro x y bs hl
      have a := hx' [x, y] bs (fun _ => 0) rfl hl
      obtain ⟨e1, e2⟩ := env_two x y bs
      rw [hb] at a
      simp only [portWord, wired, s1, s2, e1, e2] at a
      exact a
    · right
      intro x y bs hl
      have a := hx' [x, y] bs (fun _ => 0) rfl hl
      obtain ⟨e1, e2⟩ := env_two x y bs
      rw [hb] at a
      simp only [portWord, wired, s1, s2, e1, e2] at a
      exact a

/-! ### what fits is mapped -/

/-- The bits in order, but with bit 0 and bit `i` exchanged. -/
def swapped (i j : Nat) : Nat := if j = 0 then i else if j = i then 0 else j

theorem swapped_lt {i j m : Nat} (hi : i < m ∨ i = 0) : swapped i j < m ↔ j < m := by
  unfold swapped
  split
  · omega
  · split <;> omega

theorem swapped_swapped (i j : Nat) : swapped i (swapped i j) = j := by
  unfold swapped
  split
  · split
    · omega
    · simp; omega
  · split
    · simp; omega
    · rfl

/-- The wiring: the words in order or exchanged, and the bits with bit `i` first. -/
def wires (n m : Nat) (sw : Bool) (i : Nat) (k : Nat) : Option Nat :=
  if k = 1 then (if 0 < n then some (if sw then 2 else 1) else none)
  else if k = 2 then (if n = 2 then some (if sw then 1 else 2) else none)
  else if 3 ≤ k ∧ k ≤ 5 then (if swapped i (k - 3) < m then some (1 + n + swapped i (k - 3)) else none)
  else none

theorem wires_ok {w n m : Nat} (hn : n ≤ 2) (hm : m ≤ 3) {sw : Bool} (hsw : sw = true → n = 2) {i : Nat} (hi : i < m ∨ i = 0) :
    IsAssignment (dIn w).toList (mixFields w 1 n m).toList (wires n m sw i) := by
  constructor
  · intro a t q ha hq
    simp only [dIn, Fields.toList, List.mem_cons, Prod.mk.injEq, List.not_mem_nil, or_false] at ha
    have bitc : ∀ (a q : Nat), a = 3 ∨ a = 4 ∨ a = 5 → wires n m sw i a = some q → (q, Ty.bit 0) ∈ (mixFields w 1 n m).toList := by
      intro a q ha hq
      unfold wires at hq
      rw [if_neg (by omega), if_neg (by omega), if_pos (by omega)] at hq
      split at hq
      · next h =>
        have := Option.some.inj hq
        refine mix_mem.mpr ⟨by omega, by omega, ?_⟩
        rw [if_neg (by omega)]
      · cases hq
    rcases ha with ⟨rfl, rfl⟩ | ⟨rfl, rfl⟩ | ⟨rfl, rfl⟩ | ⟨rfl, rfl⟩ | ⟨rfl, rfl⟩
    · unfold wires at hq
      rw [if_pos rfl] at hq
      split at hq
      · next h =>
        have := Option.some.inj hq
        subst this
        cases sw
        · exact mix_mem.mpr ⟨by simp, by simp; omega, by simp; omega⟩
        · have := hsw rfl
          exact mix_mem.mpr ⟨by simp, by simp; omega, by simp; omega⟩
      · cases hq
    · unfold wires at hq
      rw [if_neg (by decide), if_pos rfl] at hq
      split at hq
      · next h =>
        have := Option.some.inj hq
        subst this
        cases sw <;> exact mix_mem.mpr ⟨by simp, by simp; omega, by simp; omega⟩
      · cases hq
    · exact bitc 3 q (by simp) hq
    · exact bitc 4 q (by simp) hq
    · exact bitc 5 q (by simp) hq
  · intro q t hq
    have hq' := mix_mem.mp hq
    have go : ∀ q : Nat, 1 ≤ q → q < 1 + n + m → ∃ a : Nat, (a = 1 ∨ a = 2 ∨ a = 3 ∨ a = 4 ∨ a = 5) ∧ wires n m sw i a = some q ∧
        ∀ b : Nat, (b = 1 ∨ b = 2 ∨ b = 3 ∨ b = 4 ∨ b = 5) → wires n m sw i b = some q → b = a := by
      intro q h1 h2
      by_cases hlt : q < 1 + n
      · refine ⟨if sw then 3 - q else q, ?_, ?_, ?_⟩
        · cases sw
          · simp; omega
          · have := hsw rfl; simp; omega
        · cases sw
          · unfold wires
            by_cases h : q = 1
            · subst h; simp; omega
            · have : q = 2 := by omega
              subst this; simp; omega
          · have := hsw rfl
            unfold wires
            by_cases h : q = 1
            · subst h; simp; omega
            · have : q = 2 := by omega
              subst this; simp; omega
        · intro b hb hbq
          unfold wires at hbq
          split at hbq
          · split at hbq
            · have := Option.some.inj hbq
              cases sw <;> simp at this ⊢ <;> omega
            · cases hbq
          · split at hbq
            · split at hbq
              · have := Option.some.inj hbq
                cases sw <;> simp at this ⊢ <;> omega
              · cases hbq
            · split at hbq
              · split at hbq
                · have := Option.some.inj hbq
                  omega
                · cases hbq
              · cases hbq
      · have hj : swapped i (q - 1 - n) < m := (swapped_lt hi).mpr (by omega)
        have hjj := swapped_swapped i (q - 1 - n)
        refine ⟨3 + swapped i (q - 1 - n), by omega, ?_, ?_⟩
        · unfold wires
          rw [if_neg (by omega), if_neg (by omega), if_pos (by omega)]
          have e : 3 + swapped i (q - 1 - n) - 3 = swapped i (q - 1 - n) := by omega
          rw [e, hjj, if_pos (by omega)]
          congr 1
          omega
        · intro b hb hbq
          unfold wires at hbq
          split at hbq
          · split at hbq
            · have := Option.some.inj hbq
              cases sw <;> simp at this hsw <;> omega
            · cases hbq
          · split at hbq
            · split at hbq
              · have := Option.some.inj hbq
                cases sw <;> simp at this <;> omega
              · cases hbq
            · split at hbq
              · split at hbq
                · have := Option.some.inj hbq
                  have e : swapped i (b - 3) = q - 1 - n := by omega
                  rw [← e, swapped_swapped]
                  omega
                · cases hbq
              · cases hbq
    obtain ⟨a, ha, e, hu⟩ := go q hq'.1 hq'.2.1
    refine ⟨a, ?_, e, ?_⟩
    · simp only [dIn, Fields.toList, List.map_cons, List.map_nil, List.mem_cons, List.not_mem_nil, or_false]
      exact ha
    · intro b hb hbq
      simp only [dIn, Fields.toList, List.map_cons, List.map_nil, List.mem_cons, List.not_mem_nil, or_false] at hb
      exact hu b hb hbq

/-- The bit at a port. -/
theorem port_bit {n m : Nat} (sw : Bool) {i : Nat} (x z : Nat → Nat) {j : Nat} (hj : j < 3) (hlt : swapped i j < m) :
    portBit (wires n m sw i) x z (3 + j) = (bitsOf n m x)[swapped i j]?.getD false := by
  simp only [portBit, wired, wires]
  rw [if_neg (by omega), if_neg (by omega), if_pos (by omega)]
  have e : 3 + j - 3 = j := by omega
  rw [e, if_pos hlt]
  simp [bitsOf, hlt]

/-- A table for the bits as they are wired. -/
theorem table {n m : Nat} (hm : m ≤ 3) (sw : Bool) {i : Nat} (hi : i < m ∨ i = 0) (h : List Bool → Bool) :
    ∃ lut : BitVec 8, ∀ x z : Nat → Nat, lutCall lut (portBit (wires n m sw i) x z 3) (portBit (wires n m sw i) x z 4) (portBit (wires n m sw i) x z 5) = h (bitsOf n m x) := by
  obtain ⟨lut, hl⟩ := C63_universal (fun b0 b1 b2 => h ((List.range m).map (fun j => [b0, b1, b2][swapped i j]?.getD false)))
  refine ⟨lut, fun x z => ?_⟩
  rw [hl]
  congr 1
  apply List.ext_getElem
  · simp [bitsOf]
  · intro j h1 h2
    have hjm : j < m := by simpa using h1
    have hs : swapped i j < m := (swapped_lt hi).mpr hjm
    have hp := port_bit (n := n) (m := m) sw x z (i := i) (j := swapped i j) (by omega) (by rw [swapped_swapped]; exact hjm)
    rw [swapped_swapped] at hp
    simp only [List.getElem_map, List.getElem_range]
    have e : (bitsOf n m x)[j]?.getD false = (bitsOf n m x)[j] := by simp [h2]
    rw [← e, ← hp]
    have : swapped i j = 0 ∨ swapped i j = 1 ∨ swapped i j = 2 := by omega
    rcases this with e | e | e <;> rw [e] <;> rfl

theorem bits_len (n m : Nat) (x : Nat → Nat) : (bitsOf n m x).length = m := by simp [bitsOf]
theorem words_len (w n : Nat) (x : Nat → Nat) : (wordsOf w n x).length = n := by simp [wordsOf]

/-- The word can be computed, with a wiring that leaves the table free. -/
theorem word_can {w n m : Nat} (hn : n ≤ 2) (hm : m ≤ 3) {g : List (BitVec w) → List Bool → BitVec w} (h : WordOk n m g) :
    ∃ (op : Op) (imm : BitVec w) (sw : Bool) (i : Nat), (sw = true → n = 2) ∧ (i < m ∨ i = 0) ∧ ∀ (lut : BitVec 8) (x z : Nat → Nat) (b1 b2 : Bool),
      g (wordsOf w n x) (bitsOf n m x) =
        (pyCall ⟨op, imm, lut⟩ (portWord w (wires n m sw i) x z 1) (portWord w (wires n m sw i) x z 2) (portBit (wires n m sw i) x z 3) b1 b2).1 := by
  rcases h with ⟨c, h⟩ | ⟨rfl, h⟩ | ⟨rfl, i, hi, h⟩
  · refine ⟨.imm, c, false, 0, by simp, .inr rfl, fun lut x z b1 b2 => ?_⟩
    rw [h _ _ (words_len w n x) (bits_len n m x)]
    simp [pyCall, aluCall]
  · refine ⟨.add, 0, false, 0, by simp, .inr rfl, fun lut x z b1 b2 => ?_⟩
    refine (h (.ofNat w (x 1)) (.ofNat w (x 2)) _ (bits_len 2 m x)).trans ?_
    simp [pyCall, aluCall, portWord, wired, wires]
  · have hp : ∀ (sw : Bool) (x z : Nat → Nat), portBit (wires 2 m sw i) x z 3 = (bitsOf 2 m x)[i]?.getD false := by
      intro sw x z
      have e : swapped i 0 = i := by simp [swapped]
      have := port_bit (n := 2) (m := m) sw x z (i := i) (j := 0) (by omega) (by rw [e]; exact hi)
      rw [e] at this
      exact this
    rcases h with h | h
    · refine ⟨.mux, 0, false, i, by simp, .inl hi, fun lut x z b1 b2 => ?_⟩
      refine (h (.ofNat w (x 1)) (.ofNat w (x 2)) _ (bits_len 2 m x)).trans ?_
      rw [hp]
      simp [pyCall, aluCall, portWord, wired, wires]
    · refine ⟨.mux, 0, true, i, by simp, .inl hi, fun lut x z b1 b2 => ?_⟩
      refine (h (.ofNat w (x 1)) (.ofNat w (x 2)) _ (bits_len 2 m x)).trans ?_
      rw [hp]
      simp [pyCall, aluCall, portWord, wired, wires]

theorem can_compute {w n m : Nat} (hw : 0 < w) (o : Outs) (f : List (BitVec w) → List Bool → BitVec w × Bool) :
    CanCompute (mixFn w n o f) (peFn w) (instT w) (mixFields w 1 n m) (o.fields w) (dIn w) (dOut w) ↔ Fits n m o f := by
  rw [can_iff]
  constructor
  · rintro ⟨i, src, hS, h⟩
    obtain ⟨h1, h2⟩ := few hS
    refine ⟨h1, h2, ?_⟩
    cases o
    · exact word_ok hw hS h rfl
    · exact bit_ok hS h rfl
    · exact ⟨word_ok hw hS h rfl, bit_ok hS h rfl⟩
  · rintro ⟨hn, hm, h⟩
    cases o with
    | word =>
      obtain ⟨op, imm, sw, i, hsw, hi, e⟩ := word_can hn hm h
      exact ⟨⟨op, imm, 0⟩, _, wires_ok hn hm hsw hi, fun x z => ⟨fun _ => e 0 x z _ _, fun ho => by cases ho⟩⟩
    | bit =>
      obtain ⟨g, hg⟩ := h
      obtain ⟨lut, hl⟩ := table (n := n) hm false (i := 0) (.inr rfl) g
      refine ⟨⟨.imm, 0, lut⟩, _, wires_ok hn hm (sw := false) (by simp) (i := 0) (.inr rfl), fun x z => ⟨(fun ho => by cases ho), fun _ => ?_⟩⟩
      exact (hg _ _ (words_len w n x) (bits_len n m x)).trans (hl x z).symm
    | both =>
      obtain ⟨h1, g, hg⟩ := h
      obtain ⟨op, imm, sw, i, hsw, hi, e⟩ := word_can hn hm h1
      obtain ⟨lut, hl⟩ := table (n := n) hm sw hi g
      refine ⟨⟨op, imm, lut⟩, _, wires_ok hn hm hsw hi, fun x z => ⟨fun _ => e lut x z _ _, fun _ => ?_⟩⟩
      exact (hg _ _ (words_len w n x) (bits_len n m x)).trans (hl x z).symm

/-! ### the validators accept everything -/

theorem several : SeveralRanges (enumCodes [.lit 1, .lit 2, .lit 6]).dedup := by
  have e : (enumCodes [.lit 1, .lit 2, .lit 6]).dedup = [1, 2, 6] := by decide +kernel
  rw [e]
  refine ⟨by decide, by decide, ?_, by decide⟩
  intro hh
  rcases hh 6 (by decide) with h | ⟨i, hi⟩
  · omega
  · rcases i with _ | _ | _ | i
    · omega
    · omega
    · omega
    · have := Nat.two_pow_pos i
      rw [Nat.pow_succ, Nat.pow_succ, Nat.pow_succ] at hi
      omega

theorem op_valid (P : Process) (n : Nat) : isValidAV P.asm (mkAV opT n) = .ok true := by
  obtain ⟨o, ho, hv⟩ := C05_violated_blind (P.hist opT) opT op_wf several
  simp only [opT, mkAV, isValidAV]
  rw [← opT]
  simp only [Process.asm, ho, hv]

theorem inst_valid (P : Process) (w n : Nat) : isValidAV P.asm (mkAV (instT w) n) = .ok true := by
  obtain ⟨o, ho, hv⟩ := C05_violated_blind (P.hist (instT w)) (instT w) (inst_wf w) ⟨⟨several, trivial, trivial⟩, trivial, trivial⟩
  simp only [instT, mkAV, isValidAV]
  rw [← instT]
  simp only [Process.asm, ho, hv]

theorem leaves_ok (P : Process) (w : Nat) : ∀ r p c ms n, RHas (instT w) r → isValidAV P.asm (mkAV (instT w) (rawCode (instT w) r)) = .ok true →
    (p, Ty.enum c ms, n) ∈ rawLeaves (instT w) r → isValidAV P.asm (mkAV (.enum c ms) n) = .ok true := by
  intro r p c ms n hr _ h
  obtain ⟨op, imm, lut, rfl, _⟩ := inst_shape hr
  simp [instT, aluT, opT, rawLeaves, rawLeavesAll] at h
  obtain ⟨_, ⟨rfl, rfl⟩, rfl⟩ := h
  exact op_valid P n

/-- The operation an operation code stands for: 1 and 2 are `imm` and `Add`, any other code acts as `Mux`. -/
def canon (op : Nat) : Op := if op = 1 then .imm else if op = 2 then .add else .mux

theorem val_canon {w : Nat} (op imm lut : Nat) (d0 d1 : BitVec w) (b0 b1 b2 : Bool) : val op imm lut d0 d1 b0 b1 b2 = val (canon op).code imm lut d0 d1 b0 b1 b2 := by
  by_cases h1 : op = 1
  · subst h1; rfl
  · by_cases h2 : op = 2
    · subst h2; rfl
    · have e1 : (op == 1) = false := by simp [h1]
      have e2 : (op == 2) = false := by simp [h2]
      simp [canon, h1, h2, Op.code, val, e1, e2]

/-- Whatever the bits of the instruction are, the PE acts on some instruction. -/
theorem pe_canon {w : Nat} {r : RVal} (h : RHas (instT w) r) : ∃ i : Inst w, ∀ y, peFn w (.prod (r :: rowOf (dIn w) y)) [] = peFn w (.prod (rawOf (instT w) i.val :: rowOf (dIn w) y)) [] := by
  obtain ⟨op, imm, lut, rfl, _, hi, hl⟩ := inst_shape h
  refine ⟨⟨canon op, .ofNat w imm, .ofNat 8 lut⟩, fun y => ?_⟩
  have e1 : (BitVec.ofNat w imm).toNat = imm := by simp [Nat.mod_eq_of_lt hi]
  have e2 : (BitVec.ofNat 8 lut).toNat = lut := by simp [Nat.mod_eq_of_lt hl]
  rw [raw_val, e1, e2]
  simp only [dIn, rowOf, peFn, val_canon op]

theorem can_raw (P : Process) {w n m : Nat} (hw : 0 < w) (o : Outs) (f : List (BitVec w) → List Bool → BitVec w × Bool) :
    CanComputeRaw P.asm (mixFn w n o f) (peFn w) (instT w) (mixFields w 1 n m) (o.fields w) (dIn w) (dOut w) ↔ Fits n m o f := by
  rw [← can_compute hw o f]
  constructor
  · rintro ⟨r, src, out, hr, _, hS, hO, h⟩
    obtain ⟨i, hi⟩ := pe_canon hr
    refine ⟨i.val, src, out, val_has i, hS, hO, ?_⟩
    intro x z
    rw [← hi]
    exact h x z
  · rintro ⟨v, src, out, hv, h⟩
    exact ⟨_, src, out, (C38_rawOf (instT w) v (inst_wf w) hv).1, inst_valid P w _, h⟩

/-- C63: in every process, with a sound and complete solver, either encoding of the index variables and for every width, the mapper maps an instruction on words and bits to the PE if and only if
the PE can compute it (`Fits`): at most two words and three bits; a word output that is a constant, a sum, or one of the words chosen by a bit; a bit output that is any function of
the bits.  The rule is a correct mapping.  Otherwise the mapper returns `None`. -/
theorem C63_mapping (P : Process) (enc : IEnc) {w n m : Nat} (hw : 0 < w)
    (solve : (MAsg Nat → Prop) → Option (MAsg Nat)) (hsat : ∀ φ a, solve φ = some a → φ a) (hcomp : ∀ φ a, φ a → ∃ a', solve φ = some a') (a0 : MAsg Nat)
    (hn : 0 < n + m) (o : Outs) (f : List (BitVec w) → List Bool → BitVec w × Bool) :
    (Fits n m o f → ∃ r, mapSolve P.asm (problem P.asm enc w n m o f) solve a0 = .ok (some r) ∧
      IsMapping P.asm (problem P.asm enc w n m o f) r ∧ RuleRight P (mixIr w n m o f) (pe P.asm w) r) ∧
    (¬ Fits n m o f → mapSolve P.asm (problem P.asm enc w n m o f) solve a0 = .ok none) := by
  rw [← can_raw P hw o f]
  exact right_of (setup P enc hw hn o f) <| C33_instruction_bits P (problem P.asm enc w n m o f) (mixFn w n o f) (peFn w) (fun _ => [1]) 0 (instT w) _ _ _ _ (shape P.asm enc w n m o f)
    (setup P enc hw hn o f) (pe_total P w) (leaves_ok P w) solve hsat hcomp a0

/-- C63: the same with `simple_formula=True`. -/
theorem C63_mapping_simple (P : Process) (enc : IEnc) {w n m : Nat} (hw : 0 < w)
    (solve : (SAsg Nat → Prop) → Option (SAsg Nat)) (hsat : ∀ φ a, solve φ = some a → φ a) (hcomp : ∀ φ a, φ a → ∃ a', solve φ = some a') (a0 : SAsg Nat)
    (hn : 0 < n + m) (o : Outs) (f : List (BitVec w) → List Bool → BitVec w × Bool) :
    (Fits n m o f → ∃ r, simpleSolve P.asm (problem P.asm enc w n m o f) solve a0 = .ok (some r) ∧
      IsMapping P.asm (problem P.asm enc w n m o f) r ∧ RuleRight P (mixIr w n m o f) (pe P.asm w) r) ∧
    (¬ Fits n m o f → simpleSolve P.asm (problem P.asm enc w n m o f) solve a0 = .ok none) := by
  rw [← can_raw P hw o f]
  exact right_of (setup P enc hw hn o f) <| C55_instruction_bits P (problem P.asm enc w n m o f) (mixFn w n o f) (peFn w) (fun _ => [1]) 0 (instT w) _ _ _ _ (shape P.asm enc w n m o f)
    (setup P enc hw hn o f) (pe_total P w) (pe_boxes P.asm w) (leaves_ok P w) solve hsat hcomp a0

/-- On 8-bit words: a choice by the second of two bits beside the conjunction of the bits is mapped; whether two words are equal is not. -/
example (P : Process) (enc : IEnc) (solve : (MAsg Nat → Prop) → Option (MAsg Nat)) (hsat : ∀ φ a, solve φ = some a → φ a)
    (hcomp : ∀ φ a, φ a → ∃ a', solve φ = some a') (a0 : MAsg Nat) :
    (∃ r, mapSolve P.asm (problem P.asm enc 8 2 2 .both (fun xs bs => (if bs[1]?.getD false then xs[0]! else xs[1]!, bs.all id))) solve a0 = .ok (some r)) ∧
    mapSolve P.asm (problem P.asm enc 8 2 0 .bit (fun xs _ => (0, xs[0]! == xs[1]!))) solve a0 = .ok none := by
  constructor
  · obtain ⟨r, hr, _⟩ := (C63_mapping P enc (w := 8) (by decide) solve hsat hcomp a0 (n := 2) (m := 2) (by decide) .both
      (fun xs bs => (if bs[1]?.getD false then xs[0]! else xs[1]!, bs.all id))).1
      ⟨by decide, by decide, .inr (.inr ⟨rfl, 1, by decide, .inl (fun _ _ _ _ => rfl)⟩), fun bs => bs.all id, fun _ _ _ _ => rfl⟩
    exact ⟨r, hr⟩
  · refine (C63_mapping P enc (w := 8) (by decide) solve hsat hcomp a0 (n := 2) (m := 0) (by decide) .bit (fun xs _ => (0, xs[0]! == xs[1]!))).2 ?_
    rintro ⟨_, _, g, hg⟩
    have a := hg [0, 0] [] rfl rfl
    have b := hg [0, 1] [] rfl rfl
    rw [← a] at b
    exact absurd b (by decide)

/-! ### rules with operations that are none -/

theorem no_member (P : Process) : ∃ o, P.asm opT = .ok o ∧ ∀ v, o.disassemble (BV.ofNat 3 0) ≠ .ok v := by
  obtain ⟨o, ho, hg⟩ := P.good op_wf
  refine ⟨o, ho, fun v hd => ?_⟩
  have hr := hg.disassemble_sound (by decide +kernel) hd
  have hh := reads_has _ _ _ hr
  cases v with
  | enum e =>
    simp only [opT, Ty.Has, List.mem_cons, List.not_mem_nil, or_false] at hh
    simp only [opT, Reads] at hr
    rcases hh with rfl | rfl | rfl <;> exact absurd hr (by decide +kernel)
  | _ => simp [opT, Reads] at hr

/-- A choice between two words by a bit. -/
def choose2 {w : Nat} (xs : List (BitVec w)) (bs : List Bool) : BitVec w × Bool := (if bs[0]?.getD false then xs[0]! else xs[1]!, false)

/-- C63 fails for the instruction a rule contains: in every process there is a sound and complete solver with which the mapper returns, for a choice between two words, a rule whose operation is
0.  No operation has that code: disassembling it fails. -/
theorem C63_violated_opcode (P : Process) (enc : IEnc) {w : Nat} (hw : 0 < w) :
    ∃ solve : (MAsg Nat → Prop) → Option (MAsg Nat), (∀ φ a, solve φ = some a → φ a) ∧ (∀ φ a, φ a → ∃ a', solve φ = some a') ∧
      ∀ a0, ∃ r, mapSolve P.asm (problem P.asm enc w 2 1 .word choose2) solve a0 = .ok (some r) ∧ (RSrc.const (.bits (BV.ofNat 3 0)), [0, 0, 0]) ∈ r.ib ∧
        ∃ o, P.asm opT = .ok o ∧ ∀ v, o.disassemble (BV.ofNat 3 0) ≠ .ok v := by
  have hp := Nat.two_pow_pos w
  have hi : RHas (instT w) (.prod [.prod [.leaf 0, .leaf 0], .leaf 0]) := by
    have := op_width
    refine ⟨⟨?_, ?_, trivial⟩, ?_, trivial⟩
    · show 0 < 2 ^ width opT
      rw [this]; decide
    · exact hp
    · show 0 < 2 ^ 8
      decide
  have hs : Solves 2 1 .word choose2 (⟨.mux, 0, 0⟩ : Inst w) (wires 2 1 false 0) := by
    intro x z
    refine ⟨fun _ => ?_, fun ho => by cases ho⟩
    rfl
  obtain ⟨out, hS, hO, ho⟩ := computes_of (wires_ok (by decide) (by decide) (by decide) (.inr rfl)) hs
  have hc : ComputesWith (mixFn w 2 .word choose2) (peFn w) (mixFields w 1 2 1) (Outs.fields w .word) (dIn w) (dOut w) (.prod [.prod [.leaf 0, .leaf 0], .leaf 0])
      (wires 2 1 false 0) out := by
    refine ⟨hS, hO, fun x z => ?_⟩
    have := ho x z
    rw [raw_val] at this
    exact this
  obtain ⟨solve, h1, h2, h3⟩ := C33_any_instruction P (problem P.asm enc w 2 1 .word choose2) (mixFn w 2 .word choose2) (peFn w) (fun _ => [1]) 0 (instT w) _ _ _ _
    (shape P.asm enc w 2 1 .word choose2) (setup P enc hw (by decide) .word choose2) (pe_total P w) (leaves_ok P w) _ _ _ hi (inst_valid P w _) hc
  refine ⟨solve, h1, h2, fun a0 => ?_⟩
  obtain ⟨r, hr, hl⟩ := h3 a0
  obtain ⟨c, hcm, hcs⟩ := hl [0, 0] opT 0 (by simp [instT, aluT, opT, rawLeaves, rawLeavesAll])
  refine ⟨r, hr, ?_, no_member P⟩
  cases c with
  | bits b =>
    obtain ⟨_, e1, e2⟩ := hcs
    rw [op_width] at e1
    have : b = BV.ofNat 3 0 := BV.ext e1 e2
    rw [← this]
    exact hcm
  | bit b =>
    obtain ⟨⟨x, hx⟩, _⟩ := hcs
    simp [opT] at hx

end Peak.LPe
