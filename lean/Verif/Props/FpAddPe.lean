import Verif.Spec.FpAddPe
import Verif.Props.FpPe
import Verif.Props.AddNotPe
/-!
# C94: mapping to the PE with a floating-point adder of `test_black_box_rr.test_simple`
-/

namespace Peak.FaPe
open Peak Peak.Spec
open Peak.FPe (Cls Wires wires_cases srcOf)

variable {w : Nat}

/-- The box of an instruction, and what it is given. -/
abbrev Box (w : Nat) := Option (Cls × (List (BitVec w) → List (BitVec w)))

/-! ## the PE as a function -/

def peFn (w : Nat) : Fn Nat := fun r bb => match r with
  | .prod [.prod [.leaf op], .leaf a, .leaf b] =>
    (.prod [.leaf (if op == 1 then BitVec.ofNat w a + .ofNat w b else boxOut w bb 1).toNat], [(1, [toBV (BitVec.ofNat w a), toBV (BitVec.ofNat w b)])])
  | r => (r, [])

theorem get_op (P : Process) {op : Nat} (h : op < 4) : (mkAV instT (rawCode instT (.prod [.leaf op]))).get P.asm 0 = .ok (mkAV ANPe.opT op) :=
  RG.get_raw P (k := 0) (t := ANPe.opT) (v := .leaf op) ANPe.inst_wf (ANPe.inst_has h) (by simp [Fields.toList])

theorem pe_computes (P : Process) (w : Nat) : Computes P (pe w P.asm) (peFn w) := by
  refine ⟨99, .cons 0 instT (dIn w), 100, dOut w, rfl, rfl, ?_⟩
  intro vs bb h
  match vs, h with
  | [v0, v1, v2], ⟨h0, h1, h2, _⟩ =>
    obtain ⟨op, rfl, ho⟩ := ANPe.inst_shape h0
    obtain ⟨a, rfl, ha⟩ := SPe.leaf_shape (.inl ⟨_, _, rfl⟩) h1
    obtain ⟨b, rfl, hb⟩ := SPe.leaf_shape (.inl ⟨_, _, rfl⟩) h2
    refine ⟨_, rfl, ⟨BitVec.isLt _, trivial⟩, ?_⟩
    have hrun : (pe w P.asm).run (inputDict (.cons 0 instT (dIn w)) [.prod [.leaf op], .leaf a, .leaf b]) bb =
        ([.bits (toBV (if op == 1 then BitVec.ofNat w a + .ofNat w b else boxOut w bb 1))], [(1, [toBV (BitVec.ofNat w a), toBV (BitVec.ofNat w b)])]) := by
      simp only [pe, dIn, inputDict, smtCall, get_op P ho, bind, Except.bind, ANPe.add_code P ho]
      simp only [mkAV, CPe.wordOf_bits, rawCode]
    rw [hrun]
    exact ⟨⟨WIr.new_word P w _, trivial⟩, rfl⟩

theorem run_any (P : Process) {k0 k1 k2 : Key} {n0 : Nat} {x1 x2 : AV} (h0 : n0 < 2 ^ width instT) (bb : List (Nat × List BV)) :
    ∃ r, (pe w P.asm).run [(k0, mkAV instT n0), (k1, x1), (k2, x2)] bb = ([.bits (toBV (w := w) r)], [(1, [toBV (wordOf w x1), toBV (wordOf w x2)])]) := by
  obtain ⟨m, hm, g⟩ := RG.get_any P (k := 0) (t := ANPe.opT) ANPe.inst_wf h0 (by simp [Fields.toList])
  rw [← ANPe.instT] at g
  rw [ANPe.op_width] at hm
  simp only [pe, smtCall, g, bind, Except.bind, ANPe.add_code P hm]
  exact ⟨_, rfl⟩

theorem pe_total (P : Process) (w : Nat) : Total P (pe w P.asm) := by
  refine ⟨99, .cons 0 instT (dIn w), 100, dOut w, rfl, rfl, ?_⟩
  intro d bb h
  match d, h with
  | [(k0, x0), (k1, x1), (k2, x2)], ⟨_, ⟨n0, h0, e0⟩, _⟩ =>
    subst e0
    obtain ⟨r, hr⟩ := run_any (w := w) P (k0 := k0) (k1 := k1) (k2 := k2) (x1 := x1) (x2 := x2) h0 bb
    rw [hr]
    exact ⟨[.leaf r.toNat], ⟨BitVec.isLt _, trivial⟩, WIr.new_word P w _, trivial⟩

/-- The widths of the inputs of a box. -/
def inW (w : Nat) (k : Cls) : List Nat := List.replicate k.arity w

theorem ins_ok {A : Ty → Except Err AsmObj} (a b : BitVec w) {B : Nat} {k : Cls} (h : (B, k) ∈ (pe w A).bbs) : ∃ i, [((1 : Nat), [toBV a, toBV b])].lookup B = some i ∧ i.map BV.size = inW w k := by
  simp only [pe, List.mem_singleton, Prod.mk.injEq] at h
  obtain ⟨rfl, rfl⟩ := h
  exact ⟨_, rfl, rfl⟩

theorem pe_boxes (P : Process) (w : Nat) : TotalBoxes (pe w P.asm) (inW w) := by
  intro ci fi hc d bb hd
  cases hc
  match d, hd with
  | [(k0, x0), (k1, x1), (k2, x2)], ⟨_, ⟨n0, h0, e0⟩, _⟩ =>
    subst e0
    obtain ⟨r, hr⟩ := run_any (w := w) P (k0 := k0) (k1 := k1) (k2 := k2) (x1 := x1) (x2 := x2) h0 bb
    rw [hr]
    exact ⟨rfl, fun b k h => ins_ok _ _ h⟩

/-! ## the instruction as a function -/

def boxFn (box : Box w) (g : List (BitVec w) → BitVec w → BitVec w) : Fn Nat := fun r bb => match r with
  | .prod vs => match box with
    | none => (.prod [.leaf (g (vs.map (WIr.leafWord w)) 0).toNat], [])
    | some (_, h) => (.prod [.leaf (g (vs.map (WIr.leafWord w)) (boxOut w bb 0)).toNat], [(0, (h (vs.map (WIr.leafWord w))).map toBV)])
  | r => (r, [])

theorem ir_computes (P : Process) (n : Nat) (box : Box w) (g : List (BitVec w) → BitVec w → BitVec w) : Computes P (boxIr w n box g) (boxFn box g) := by
  refine ⟨8, wordFields w 1 n, 9, dOut w, rfl, rfl, ?_⟩
  intro vs bb h
  cases box with
  | none =>
    refine ⟨_, rfl, ⟨BitVec.isLt _, trivial⟩, ?_, rfl⟩
    simp only [boxIr]
    rw [WIr.words_dict w 1 n vs h]
    exact ⟨WIr.new_word P w _, trivial⟩
  | some kh =>
    refine ⟨_, rfl, ⟨BitVec.isLt _, trivial⟩, ?_, ?_⟩
    · simp only [boxIr]
      rw [WIr.words_dict w 1 n vs h]
      exact ⟨WIr.new_word P w _, trivial⟩
    · simp only [boxIr, boxFn]
      rw [WIr.words_dict w 1 n vs h]

theorem row_length : ∀ {i n : Nat} {vs : List RVal}, RHasAll (wordFields w i n) vs → vs.length = n
  | _, 0, [], _ => rfl
  | _, 0, _ :: _, h => by simp [wordFields, RHasAll] at h
  | _, _ + 1, [], h => by simp [wordFields, RHasAll] at h
  | _, _ + 1, _ :: _, h => congrArg (· + 1) (row_length h.2)

theorem inst_buildable : Buildable instT := by
  have h := ANPe.op_width
  refine ⟨by simp [Fields.toList], .inr rfl, ?_, trivial⟩
  simp [ANPe.opT, Buildable]

theorem setup (P : Process) (enc : IEnc) (hw : 0 < w) {n : Nat} (hn : 0 < n) (box : Box w) (hb : BoxOk w n box) (g : List (BitVec w) → BitVec w → BitVec w) :
    Setup P (problem w P.asm enc n box g).ir (problem w P.asm enc n box g).arch (boxFn box g) (peFn w) (inW w) := by
  have hin : ∀ k, inW w k ≠ [] := by
    intro k
    cases k <;> simp [inW, Cls.arity]
  refine ⟨ir_computes P n box g, pe_computes P w, ⟨⟨WIr.fields_nodup w 1 n, WIr.fields_wf w 1 n⟩, ?_⟩, ?_, ⟨⟨by simp [dOut, Fields.toList], trivial, trivial⟩, ⟨by simp [dOut, Fields.toList], .inr rfl, trivial, trivial⟩, trivial, trivial⟩,
    ⟨⟨by simp [dOut, Fields.toList], trivial, trivial⟩, ⟨by simp [dOut, Fields.toList], .inr rfl, trivial, trivial⟩, trivial, trivial⟩, ?_, ?_, rfl⟩
  · refine ⟨?_, .inl ?_, WIr.fields_build w 1 n⟩
    · intro h
      have : (1, Ty.bv 0 w) ∈ (wordFields w 1 n).toList := WIr.fields_mem.mpr ⟨Nat.le_refl _, by omega, rfl⟩
      rw [h] at this
      cases this
    · rintro ⟨k, t⟩ hk
      obtain ⟨_, _, rfl⟩ := WIr.fields_mem.mp hk
      simpa [width] using hw
  · have h1 := ANPe.inst_wf
    have h2 := inst_buildable
    have h3 := ANPe.inst_width
    simp [pe, problem, dIn, WF, WFs, Buildable, Buildables, Fields.toList, width, h1, h2, h3, hw]
  · refine ⟨?_, hin, by simpa [problem, boxIr] using hw, fun r bb h => ?_⟩
    · cases box <;> simp [problem, boxIr]
    · cases r with
      | leaf _ => simp [problem, boxIr, RHas] at h
      | sum _ _ => simp [problem, boxIr, RHas] at h
      | prod vs =>
        have hl := row_length h
        cases box with
        | none => exact ⟨rfl, by simp [problem, boxIr]⟩
        | some kh =>
          obtain ⟨k, hh⟩ := kh
          refine ⟨rfl, ?_⟩
          intro b k' hm
          simp only [problem, boxIr, List.mem_singleton, Prod.mk.injEq] at hm
          obtain ⟨rfl, rfl⟩ := hm
          refine ⟨_, rfl, ?_⟩
          have := hb k' hh rfl (vs.map (WIr.leafWord w)) (by simp [hl])
          rw [inW, ← this, List.map_map]
          apply List.ext_getElem <;> simp [toBV]
  · refine ⟨by simp [problem, pe], hin, by simpa [problem, pe] using hw, fun r bb h => ?_⟩
    cases r with
    | leaf _ => simp [problem, pe, RHas] at h
    | sum _ _ => simp [problem, pe, RHas] at h
    | prod vs =>
      match vs, h with
      | [v0, v1, v2], ⟨h0, h1, h2, _⟩ =>
        obtain ⟨op, rfl, ho⟩ := ANPe.inst_shape h0
        obtain ⟨a, rfl, ha⟩ := SPe.leaf_shape (.inl ⟨_, _, rfl⟩) h1
        obtain ⟨b, rfl, hb⟩ := SPe.leaf_shape (.inl ⟨_, _, rfl⟩) h2
        exact ⟨rfl, fun b k h => ins_ok _ _ h⟩

theorem shape (A : Ty → Except Err AsmObj) (enc : IEnc) (n : Nat) (box : Box w) (g : List (BitVec w) → BitVec w → BitVec w) :
    BoxProblem (problem w A enc n box g) 0 instT (wordFields w 1 n) (dOut w) (dIn w) (dOut w) := by
  refine ⟨⟨8, rfl⟩, ⟨9, rfl⟩, ⟨99, rfl⟩, ⟨100, rfl⟩, WIr.fields_flat w 1 n, ?_, ?_, ?_, rfl, rfl, rfl⟩
  · intro k t h
    simp only [dOut, Fields.toList, List.mem_singleton, Prod.mk.injEq] at h
    rw [h.2]
    trivial
  · intro k t h
    simp only [dIn, Fields.toList, List.mem_cons, Prod.mk.injEq, List.not_mem_nil, or_false] at h
    rcases h with ⟨_, rfl⟩ | ⟨_, rfl⟩ <;> trivial
  · intro k t h
    simp only [dOut, Fields.toList, List.mem_singleton, Prod.mk.injEq] at h
    rw [h.2]
    trivial

/-! ## what an instruction computes, whatever the boxes compute -/

def wordsOf (w n : Nat) (x : Key → Nat) : List (BitVec w) := (List.range n).map (fun j => .ofNat w (x (j + 1)))

theorem row_from (x : Key → Nat) : ∀ i n : Nat, (rowOf (wordFields w i n) x).map (WIr.leafWord w) = (List.range n).map (fun j => BitVec.ofNat w (x (j + i)))
  | _, 0 => rfl
  | i, n + 1 => by
    have h := CPe.ofNat_mod w
    rw [List.range_succ_eq_map]
    simp only [rowOf, wordFields, WIr.leafWord, width, List.map_cons, List.map_map, h, row_from x (i + 1) n, Nat.zero_add, List.cons.injEq, true_and]
    apply List.map_congr_left
    intro j _
    simp only [Function.comp]
    congr 2
    exact (Nat.succ_add_eq_add_succ j i).symm

theorem row_words (x : Key → Nat) (n : Nat) : (rowOf (wordFields w 1 n) x).map (WIr.leafWord w) = wordsOf w n x := row_from x 1 n

theorem words_len (n : Nat) (x : Key → Nat) : (wordsOf w n x).length = n := by simp [wordsOf]

def port (w : Nat) (src : Key → Option Key) (x z : Key → Nat) (k : Key) : BitVec w := .ofNat w (wired src x z k)

/-- The output of the instruction's box. -/
def boxVal (G : Cls → List (BitVec w) → BitVec w) (box : Box w) (xs : List (BitVec w)) : BitVec w :=
  match box with
  | none => 0
  | some (k, h) => G k (h xs)

/-- The PE when the boxes compute `G`. -/
def valG (op : Nat) (a b : BitVec w) (G : Cls → List (BitVec w) → BitVec w) : BitVec w := if op == 1 then a + b else G .add [a, b]

def toWord (w : Nat) (b : BV) : BitVec w := .ofNat w b.val

theorem toWord_toBV (v : BitVec w) : toWord w (toBV v) = v := by
  apply BitVec.eq_of_toNat_eq
  have := v.isLt
  simp only [toWord, toBV, BV.ofNat_val, BitVec.toNat_ofNat]
  rw [Nat.mod_mod, Nat.mod_eq_of_lt this]

theorem toWords_toBVs (l : List (BitVec w)) : (l.map toBV).map (toWord w) = l := by
  rw [List.map_map]
  have : toWord w ∘ toBV = id := funext toWord_toBV
  rw [this, List.map_id]

theorem word_of_bv (n : Nat) : BitVec.ofNat w (BV.ofNat w n).val = .ofNat w n := by
  rw [BV.ofNat_val, CPe.ofNat_mod]

theorem pe_outs (A : Ty → Except Err AsmObj) (ρ : Nat → Nat → Nat) : (pe w A).bbOuts ρ = [(1, [BV.ofNat w (ρ 1 0)])] := by
  simp [PeakObj.bbOuts, pe]

theorem ir_outs (n : Nat) (k : Cls) (h : List (BitVec w) → List (BitVec w)) (g : List (BitVec w) → BitVec w → BitVec w) (ρ : Nat → Nat → Nat) :
    (boxIr w n (some (k, h)) g).bbOuts ρ = [(0, [BV.ofNat w (ρ 0 0)])] := by
  simp [PeakObj.bbOuts, boxIr]

theorem pe_out (A : Ty → Except Err AsmObj) (ρ : Nat → Nat → Nat) : boxOut w ((pe w A).bbOuts ρ) 1 = .ofNat w (ρ 1 0) := by
  rw [pe_outs]
  exact word_of_bv _

theorem ir_out (n : Nat) (k : Cls) (h : List (BitVec w) → List (BitVec w)) (g : List (BitVec w) → BitVec w → BitVec w) (ρ : Nat → Nat → Nat) :
    boxOut w ((boxIr w n (some (k, h)) g).bbOuts ρ) 0 = .ofNat w (ρ 0 0) := by
  rw [ir_outs]
  exact word_of_bv _

theorem pe_bc {A : Ty → Except Err AsmObj} {F : Cls → List BV → List BV} {a b : BitVec w} {ρ : Nat → Nat → Nat} :
    BoxesCompute F (pe w A).bbs [(1, [toBV a, toBV b])] ((pe w A).bbOuts ρ) ↔ F .add ([a, b].map toBV) = [BV.ofNat w (ρ 1 0)] := by
  rw [pe_outs]
  constructor
  · intro h
    exact h 1 .add _ _ (by simp [pe]) rfl rfl
  · rintro h1 B k i o hm hi ho
    simp only [pe, List.mem_singleton, Prod.mk.injEq] at hm
    obtain ⟨rfl, rfl⟩ := hm
    cases hi; cases ho; exact h1

theorem ir_bc {n : Nat} {k : Cls} {h : List (BitVec w) → List (BitVec w)} {g : List (BitVec w) → BitVec w → BitVec w} {F : Cls → List BV → List BV} {l : List BV} {ρ : Nat → Nat → Nat} :
    BoxesCompute F (boxIr w n (some (k, h)) g).bbs [(0, l)] ((boxIr w n (some (k, h)) g).bbOuts ρ) ↔ F k l = [BV.ofNat w (ρ 0 0)] := by
  rw [ir_outs]
  constructor
  · intro hh
    exact hh 0 k _ _ (by simp [boxIr]) rfl rfl
  · intro hh B k' i o hm hi ho
    simp only [boxIr, List.mem_singleton, Prod.mk.injEq] at hm
    obtain ⟨rfl, rfl⟩ := hm
    cases hi; cases ho; exact hh

/-- The word a list of vectors stands for. -/
def headWord (w : Nat) : List BV → BitVec w
  | [b] => toWord w b
  | _ => 0

theorem core {A : Ty → Except Err AsmObj} {n op : Nat} {box : Box w} {g : List (BitVec w) → BitVec w → BitVec w} {src out : Key → Option Key} (hO : out 0 = some 0) :
    (∀ (x z : Key → Nat) (F : Cls → List BV → List BV) (ρi ρa : Nat → Nat → Nat),
      BoxesCompute F (boxIr w n box g).bbs (boxFn box g (.prod (rowOf (wordFields w 1 n) x)) ((boxIr w n box g).bbOuts ρi)).2 ((boxIr w n box g).bbOuts ρi) →
      BoxesCompute F (pe w A).bbs (peFn w (.prod (.prod [.leaf op] :: rowOf (dIn w) (wired src x z))) ((pe w A).bbOuts ρa)).2 ((pe w A).bbOuts ρa) →
      ∀ d ∈ (dOut w).toList.map (·.1), ∀ q, out d = some q →
        prodBits (dOut w) (peFn w (.prod (.prod [.leaf op] :: rowOf (dIn w) (wired src x z))) ((pe w A).bbOuts ρa)).1 d =
          prodBits (dOut w) (boxFn box g (.prod (rowOf (wordFields w 1 n) x)) ((boxIr w n box g).bbOuts ρi)).1 q) ↔
    ∀ (x z : Key → Nat) (G : Cls → List (BitVec w) → BitVec w), g (wordsOf w n x) (boxVal G box (wordsOf w n x)) = valG op (port w src x z 1) (port w src x z 2) G := by
  have hpe : ∀ (x z : Key → Nat) (bb : List (Nat × List BV)), peFn w (.prod (.prod [.leaf op] :: rowOf (dIn w) (wired src x z))) bb =
      (.prod [.leaf (if op == 1 then port w src x z 1 + port w src x z 2 else boxOut w bb 1).toNat], [(1, [toBV (port w src x z 1), toBV (port w src x z 2)])]) := by
    intro x z bb
    simp only [dIn, rowOf, peFn, width, CPe.ofNat_mod]
    rfl
  have hir : ∀ (x : Key → Nat) (ρi : Nat → Nat → Nat), ((boxFn box g (.prod (rowOf (wordFields w 1 n) x)) ((boxIr w n box g).bbOuts ρi)).1 =
      .prod [.leaf (g (wordsOf w n x) (match box with | none => 0 | some _ => .ofNat w (ρi 0 0))).toNat]) ∧
      ∀ F : Cls → List BV → List BV, (BoxesCompute F (boxIr w n box g).bbs (boxFn box g (.prod (rowOf (wordFields w 1 n) x)) ((boxIr w n box g).bbOuts ρi)).2 ((boxIr w n box g).bbOuts ρi) ↔
        (match box with | none => True | some (k, h) => F k ((h (wordsOf w n x)).map toBV) = [BV.ofNat w (ρi 0 0)])) := by
    intro x ρi
    cases box with
    | none =>
      refine ⟨by simp only [boxFn, row_words], fun F => ⟨fun _ => trivial, fun _ B k i o hm => ?_⟩⟩
      simp [boxIr] at hm
    | some kh =>
      obtain ⟨k', h'⟩ := kh
      refine ⟨by simp only [boxFn, row_words, ir_out], fun F => ?_⟩
      simp only [boxFn, row_words]
      exact ir_bc
  constructor
  · intro h x z G
    let a := port w src x z 1
    let b := port w src x z 2
    let F : Cls → List BV → List BV := fun k l => [toBV (G k (l.map (toWord w)))]
    have hF : ∀ k l, F k (l.map toBV) = [toBV (G k l)] := by
      intro k l
      simp only [F, toWords_toBVs]
    let ρa : Nat → Nat → Nat := fun _ _ => (G .add [a, b]).toNat
    let ρi : Nat → Nat → Nat := fun _ _ => (boxVal G box (wordsOf w n x)).toNat
    have := h x z F ρi ρa ?_ ?_ 0 (by simp [dOut, Fields.toList]) 0 hO
    · rw [hpe, pe_out A ρa, (hir x ρi).1] at this
      simp only [prodBits, dOut, fieldBits, if_true, ρa, ρi] at this
      have this := BitVec.eq_of_toNat_eq this
      simp only [BitVec.ofNat_toNat, BitVec.setWidth_eq, a, b] at this
      rw [valG, this]
      congr 1
      cases box <;> simp [boxVal]
    · rw [(hir x ρi).2]
      cases box with
      | none => trivial
      | some kh => exact hF _ _
    · rw [hpe, pe_bc]
      exact hF _ _
  · intro h x z F ρi ρa hi ha d hd q hq
    simp only [dOut, Fields.toList, List.map_cons, List.map_nil, List.mem_singleton] at hd
    subst hd
    rw [hO] at hq
    cases hq
    rw [hpe, pe_bc] at ha
    rw [hpe, pe_out A ρa, (hir x ρi).1]
    rw [(hir x ρi).2] at hi
    have := h x z (fun k l => headWord w (F k (l.map toBV)))
    simp only [valG] at this
    rw [ha] at this
    simp only [headWord, toWord, word_of_bv] at this
    simp only [prodBits, dOut, fieldBits, if_true]
    rw [← this]
    congr 2
    cases box with
    | none => rfl
    | some kh =>
      simp only [boxVal]
      rw [hi]
      exact word_of_bv _

/-! ## wirings -/

theorem wires_of {n : Nat} {src : Key → Option Key} (h : IsAssignment (dIn w).toList (wordFields w 1 n).toList src) : Wires n (src 1) (src 2) := by
  refine ⟨?_, ?_, ?_⟩
  · intro k h1 h2
    obtain ⟨a, ha, hs, _⟩ := h.once k (.bv 0 w) (WIr.fields_mem.mpr ⟨h1, by omega, rfl⟩)
    simp only [dIn, Fields.toList, List.map_cons, List.map_nil, List.mem_cons, List.not_mem_nil, or_false] at ha
    rcases ha with rfl | rfl
    · exact .inl hs
    · exact .inr hs
  · intro k hk
    have t := h.typed 1 (.bv 0 w) k (by simp [dIn, Fields.toList]) hk
    have := WIr.fields_mem.mp t
    refine ⟨this.1, by omega, ?_⟩
    intro hk2
    obtain ⟨a, _, _, hu⟩ := h.once k _ t
    have e1 := hu 1 (by simp [dIn, Fields.toList]) hk
    have e2 := hu 2 (by simp [dIn, Fields.toList]) hk2
    exact absurd (e1.trans e2.symm) (by decide)
  · intro k hk
    have := WIr.fields_mem.mp (h.typed 2 (.bv 0 w) k (by simp [dIn, Fields.toList]) hk)
    exact ⟨this.1, by omega⟩

theorem of_wires {n : Nat} {s1 s2 : Option Nat} (h : Wires n s1 s2) : IsAssignment (dIn w).toList (wordFields w 1 n).toList (srcOf s1 s2) := by
  obtain ⟨h1, h2, h3⟩ := h
  constructor
  · intro a t q ha hq
    simp only [dIn, Fields.toList, List.mem_cons, Prod.mk.injEq, List.not_mem_nil, or_false] at ha
    rw [WIr.fields_mem]
    rcases ha with ⟨rfl, rfl⟩ | ⟨rfl, rfl⟩
    · have := h2 q hq
      exact ⟨this.1, by omega, rfl⟩
    · have := h3 q hq
      exact ⟨this.1, by omega, rfl⟩
  · intro q t hq
    obtain ⟨l1, l2, _⟩ := WIr.fields_mem.mp hq
    rcases h1 q l1 (by omega) with hs | hs
    · refine ⟨1, by simp [dIn, Fields.toList], hs, fun b hb hbq => ?_⟩
      simp only [dIn, Fields.toList, List.map_cons, List.map_nil, List.mem_cons, List.not_mem_nil, or_false] at hb
      rcases hb with rfl | rfl
      · rfl
      · exact absurd hbq (h2 q hs).2.2
    · refine ⟨2, by simp [dIn, Fields.toList], hs, fun b hb hbq => ?_⟩
      simp only [dIn, Fields.toList, List.map_cons, List.map_nil, List.mem_cons, List.not_mem_nil, or_false] at hb
      rcases hb with rfl | rfl
      · exact absurd hs (h2 q hbq).2.2
      · rfl

/-- The word at a port. -/
def pick (s : Option Nat) (xs : List (BitVec w)) (z : BitVec w) : BitVec w :=
  match s with
  | some q => xs[q - 1]?.getD 0
  | none => z

/-- With this operation and wires the PE computes the instruction, whatever the boxes compute. -/
def Does (n : Nat) (box : Box w) (g : List (BitVec w) → BitVec w → BitVec w) (op : Nat) (s1 s2 : Option Nat) : Prop :=
  ∀ xs z1 z2 G, xs.length = n → g xs (boxVal G box xs) = valG op (pick s1 xs z1) (pick s2 xs z2) G

def envOf (xs : List (BitVec w)) (k : Key) : Nat := (xs[(show Nat from k) - 1]?.getD 0).toNat

theorem words_env {n : Nat} {xs : List (BitVec w)} (h : xs.length = n) : wordsOf w n (envOf xs) = xs := by
  apply List.ext_getElem
  · simp [wordsOf, h]
  · intro j h1 h2
    simp only [wordsOf, List.getElem_map, List.getElem_range, envOf]
    have : ((j + 1 : Nat) - 1 : Nat) = j := by omega
    rw [this, List.getElem?_eq_getElem h2]
    simp

theorem words_get {n : Nat} {x : Key → Nat} {q : Nat} (h1 : 1 ≤ q) (h2 : q ≤ n) : (wordsOf w n x)[q - 1]?.getD 0 = .ofNat w (x q) := by
  have h : q - 1 < (wordsOf w n x).length := by rw [words_len]; omega
  have e : q - 1 + 1 = q := by omega
  rw [List.getElem?_eq_getElem h]
  simp [wordsOf, e]

theorem does_iff {n : Nat} {box : Box w} {g : List (BitVec w) → BitVec w → BitVec w} {op : Nat} {src : Key → Option Key} (hw : Wires n (src 1) (src 2)) :
    (∀ (x z : Key → Nat) (G : Cls → List (BitVec w) → BitVec w), g (wordsOf w n x) (boxVal G box (wordsOf w n x)) = valG op (port w src x z 1) (port w src x z 2) G) ↔ Does n box g op (src 1) (src 2) := by
  obtain ⟨h1, h2, h3⟩ := hw
  constructor
  · intro h xs z1 z2 G hl
    have := h (envOf xs) (fun k => if k = (1 : Nat) then z1.toNat else z2.toNat) G
    rw [words_env hl] at this
    rw [this]
    congr 1
    · simp only [port, wired]
      cases src 1 with
      | none => simp [pick]
      | some q => simp [pick, envOf]
    · simp only [port, wired]
      cases src 2 with
      | none => simp [pick]
      | some q => simp [pick, envOf]
  · intro h x z G
    rw [h (wordsOf w n x) (.ofNat w (z 1)) (.ofNat w (z 2)) G (words_len n x)]
    congr 1
    · simp only [port, wired]
      cases e : src 1 with
      | none => rfl
      | some q => exact words_get (h2 q e).1 (h2 q e).2.1
    · simp only [port, wired]
      cases e : src 2 with
      | none => rfl
      | some q => exact words_get (h3 q e).1 (h3 q e).2

theorem can_iff {A : Ty → Except Err AsmObj} {n : Nat} {box : Box w} {g : List (BitVec w) → BitVec w → BitVec w} :
    CanComputeAcceptedBoxes (boxIr w n box g) (pe w A) (boxFn box g) (peFn w) instT (wordFields w 1 n) (dOut w) (dIn w) (dOut w) ↔
      ∃ op s1 s2, (op = 1 ∨ op = 2) ∧ Wires n s1 s2 ∧ Does n box g op s1 s2 := by
  constructor
  · rintro ⟨inst, src, out, hr, ha, hS, hO, h⟩
    obtain ⟨o, ho, hout, _⟩ := hO.once 0 (.bv 0 w) (by simp [dOut, Fields.toList])
    simp only [dOut, Fields.toList, List.map_cons, List.map_nil, List.mem_singleton] at ho
    subst ho
    obtain ⟨op, rfl, hop⟩ := ANPe.inst_shape hr
    have hw := wires_of hS
    exact ⟨op, src 1, src 2, (ANPe.accepts_inst op hop).mp ha, hw, (does_iff hw).mp ((core hout).mp h)⟩
  · rintro ⟨op, s1, s2, ho, hw, h⟩
    have hop : op < 4 := by omega
    refine ⟨.prod [.leaf op], srcOf s1 s2, fun _ => some 0, ANPe.inst_has hop, (ANPe.accepts_inst op hop).mpr ho, of_wires hw, ⟨?_, ?_⟩,
      (core (out := fun _ => some 0) rfl).mpr ((does_iff (src := srcOf s1 s2) hw).mpr h)⟩
    · intro a t q ha hq
      simp only [dOut, Fields.toList, List.mem_singleton, Prod.mk.injEq] at ha
      obtain ⟨rfl, rfl⟩ := ha
      cases hq
      simp [dOut, Fields.toList]
    · intro q t hq
      simp only [dOut, Fields.toList, List.mem_singleton, Prod.mk.injEq] at hq
      obtain ⟨rfl, rfl⟩ := hq
      simp [dOut, Fields.toList]

/-! ## which instructions -/

theorem zero_ne_one (hw : 0 < w) : (0 : BitVec w) ≠ 1 := by
  intro h
  simp at h
  omega

/-- If the result is that of a box of the PE, it is that of the box of the instruction, on the same inputs. -/
theorem box_eq (hw : 0 < w) {n : Nat} {box : Box w} {g : List (BitVec w) → BitVec w → BitVec w} {args : List (BitVec w) → BitVec w → List (BitVec w)}
    (h : ∀ xs z (G : Cls → List (BitVec w) → BitVec w), xs.length = n → g xs (boxVal G box xs) = G .add (args xs z)) :
    ∃ hh, box = some (.add, hh) ∧ (∀ xs y, xs.length = n → g xs y = y) ∧ ∀ xs z, xs.length = n → hh xs = args xs z := by
  cases box with
  | none =>
    have h0 := h (List.replicate n 0) 0 (fun _ _ => 0) (by simp)
    have h1 := h (List.replicate n 0) 0 (fun _ _ => 1) (by simp)
    simp only [boxVal] at h0 h1
    rw [h0] at h1
    exact absurd h1 (zero_ne_one hw)
  | some kh =>
    obtain ⟨k, hh⟩ := kh
    have key : ∀ xs z, xs.length = n → k = .add ∧ hh xs = args xs z := by
      intro xs z hl
      refine Classical.byContradiction fun hne => ?_
      have h0 := h xs z (fun _ _ => 0) hl
      have h1 := h xs z (fun k' l => if k' = .add ∧ l = args xs z then 1 else 0) hl
      simp only [boxVal, if_neg hne] at h0 h1
      rw [h0] at h1
      simp only [and_self, if_true] at h1
      exact zero_ne_one hw h1
    obtain ⟨rfl, _⟩ := key (List.replicate n 0) 0 (by simp)
    exact ⟨hh, rfl, fun xs y hl => h xs 0 (fun _ _ => y) hl, fun xs z hl => (key xs z hl).2⟩

/-- The values the box may have. -/
theorem box_any {n : Nat} {box : Box w} {g : List (BitVec w) → BitVec w → BitVec w} {v : List (BitVec w) → BitVec w → BitVec w}
    (h : ∀ xs z (G : Cls → List (BitVec w) → BitVec w), xs.length = n → g xs (boxVal G box xs) = v xs z) : ∀ xs y z, xs.length = n → (box = none → y = 0) → g xs y = v xs z := by
  intro xs y z hl hy
  have := h xs z (fun _ _ => y) hl
  cases box with
  | none =>
    rw [hy rfl]
    exact this
  | some kh => exact this

theorem fits_of (hw : 0 < w) {n : Nat} (hn : 0 < n) {box : Box w} {g : List (BitVec w) → BitVec w → BitVec w} {op : Nat} {s1 s2 : Option Nat} (hs : Wires n s1 s2) (h : Does n box g op s1 s2) : Fits w n box g := by
  by_cases ho : op = 1
  · subst ho
    have key := box_any (v := fun xs z => pick s1 xs z + pick s2 xs z) (fun xs z G hl => (h xs z z G hl).trans rfl)
    rcases wires_cases hn hs with ⟨rfl, ⟨rfl, rfl⟩ | ⟨rfl, rfl⟩⟩ | ⟨rfl, ⟨rfl, rfl⟩ | ⟨rfl, rfl⟩⟩
    · have h0 := key [0] 0 0 rfl (fun _ => rfl)
      have h1 := key [0] 0 1 rfl (fun _ => rfl)
      rw [h0] at h1
      simp [pick] at h1
      omega
    · have h0 := key [0] 0 0 rfl (fun _ => rfl)
      have h1 := key [0] 0 1 rfl (fun _ => rfl)
      rw [h0] at h1
      simp [pick] at h1
      omega
    · exact ⟨rfl, .inl fun x y v hv => (key [x, y] v 0 rfl hv).trans rfl⟩
    · exact ⟨rfl, .inl fun x y v hv => (key [x, y] v 0 rfl hv).trans (BitVec.add_comm y x)⟩
  · have ho' : (op == 1) = false := by simpa using ho
    obtain ⟨hh, rfl, hg, hxs⟩ := box_eq hw (args := fun xs z => [pick s1 xs z, pick s2 xs z]) (fun xs z G hl => (h xs z z G hl).trans (by simp only [valG, ho', Bool.false_eq_true, if_false]))
    rcases wires_cases hn hs with ⟨rfl, ⟨rfl, rfl⟩ | ⟨rfl, rfl⟩⟩ | ⟨rfl, ⟨rfl, rfl⟩ | ⟨rfl, rfl⟩⟩
    · have h0 := hxs [0] 0 rfl
      have h1 := hxs [0] 1 rfl
      rw [h0] at h1
      simp [pick] at h1
      omega
    · have h0 := hxs [0] 0 rfl
      have h1 := hxs [0] 1 rfl
      rw [h0] at h1
      simp [pick] at h1
      omega
    · exact ⟨rfl, .inr ⟨hh, rfl, fun x y v => hg [x, y] v rfl, .inl fun x y => hxs [x, y] 0 rfl⟩⟩
    · exact ⟨rfl, .inr ⟨hh, rfl, fun x y v => hg [x, y] v rfl, .inr fun x y => hxs [x, y] 0 rfl⟩⟩

theorem wires_two {i j : Nat} (h : i = 1 ∧ j = 2 ∨ i = 2 ∧ j = 1) : Wires 2 (some i) (some j) := by
  refine ⟨fun q h1 h2 => ?_, fun q hq => ?_, fun q hq => ?_⟩
  · have : q = i ∨ q = j := by omega
    rcases this with rfl | rfl <;> simp
  · cases hq
    refine ⟨by omega, by omega, ?_⟩
    intro e
    cases e
    omega
  · cases hq
    omega

theorem of_fits {n : Nat} {box : Box w} {g : List (BitVec w) → BitVec w → BitVec w} (h : Fits w n box g) : ∃ op s1 s2, (op = 1 ∨ op = 2) ∧ Wires n s1 s2 ∧ Does n box g op s1 s2 := by
  obtain ⟨rfl, h | ⟨hh, rfl, hg, h | h⟩⟩ := h
  · refine ⟨1, some 1, some 2, .inl rfl, wires_two (.inl ⟨rfl, rfl⟩), ?_⟩
    intro xs z1 z2 G hl
    match xs, hl with
    | [x, y], _ => exact (h x y _ (by rintro rfl; rfl)).trans rfl
  · refine ⟨2, some 1, some 2, .inr rfl, wires_two (.inl ⟨rfl, rfl⟩), ?_⟩
    intro xs z1 z2 G hl
    match xs, hl with
    | [x, y], _ =>
      rw [hg]
      simp only [boxVal]
      rw [h]
      rfl
  · refine ⟨2, some 2, some 1, .inr rfl, wires_two (.inr ⟨rfl, rfl⟩), ?_⟩
    intro xs z1 z2 G hl
    match xs, hl with
    | [x, y], _ =>
      rw [hg]
      simp only [boxVal]
      rw [h]
      rfl

/-- C94: the search with `simple_formula=True` and a sound and complete solver, for words of any width and any IR instruction on words with at most one black box. It returns a correct mapping if the instruction
is the sum of two words or what a floating-point adder makes of two words, and `None` otherwise; it does not raise. -/
theorem C94_mapped (P : Process) (hP : MildProcess P) (enc : IEnc) (hw : 0 < w) (n : Nat) (hn : 0 < n) (box : Option (Cls × (List (BitVec w) → List (BitVec w)))) (hb : BoxOk w n box)
    (g : List (BitVec w) → BitVec w → BitVec w)
    (solve : (SAsg Nat → Prop) → Option (SAsg Nat)) (hsat : ∀ φ a, solve φ = some a → φ a) (hcomp : ∀ φ a, φ a → ∃ a', solve φ = some a') (a0 : SAsg Nat) :
    (Fits w n box g → ∃ r, simpleSolve P.asm (problem w P.asm enc n box g) solve a0 = .ok (some r) ∧ IsMapping P.asm (problem w P.asm enc n box g) r ∧
      RuleRight P (boxIr w n box g) (pe w P.asm) r) ∧
    (¬ Fits w n box g → simpleSolve P.asm (problem w P.asm enc n box g) solve a0 = .ok none) := by
  have key := C55_instruction_known P (problem w P.asm enc n box g) (boxFn box g) (peFn w) (inW w) 0 instT (wordFields w 1 n) (dOut w) (dIn w) (dOut w) (shape P.asm enc n box g) (setup P enc hw hn box hb g) (pe_total P w)
    (pe_boxes P w) (ANPe.known hP) (ANPe.known_leaves hP) solve hsat hcomp a0
  have e : CanComputeAcceptedBoxes (problem w P.asm enc n box g).ir (problem w P.asm enc n box g).arch (boxFn box g) (peFn w) instT (wordFields w 1 n) (dOut w) (dIn w) (dOut w) ↔ Fits w n box g := by
    refine (can_iff (A := P.asm)).trans ⟨?_, of_fits⟩
    rintro ⟨op, s1, s2, ho, hs, h⟩
    exact fits_of hw hn hs h
  rw [e] at key
  exact right_of (setup P enc hw hn box hb g) key

/-- A box of another class whose output is the result. -/
theorem other_unfit (hw : 0 < w) {k : Cls} (hk : k ≠ .add) (n : Nat) (h : List (BitVec w) → List (BitVec w)) : ¬ Fits w n (some (k, h)) (fun _ y => y) := by
  rintro ⟨rfl, h' | ⟨hh, e, _⟩⟩
  · have h0 := h' 0 0 0 (by simp)
    have h1 := h' 0 0 1 (by simp)
    exact zero_ne_one hw (h0.trans h1.symm)
  · cases e
    exact hk rfl

/-- C94: the three instructions of the test (tests/test_black_box_rr.py:54-66), in words of any width: the sum and the floating-point sum are found, with a rule that is correct, and the floating-point product
is not. -/
theorem C94_test (P : Process) (hP : MildProcess P) (enc : IEnc) (hw : 0 < w) (solve : (SAsg Nat → Prop) → Option (SAsg Nat)) (hsat : ∀ φ a, solve φ = some a → φ a)
    (hcomp : ∀ φ a, φ a → ∃ a', solve φ = some a') (a0 : SAsg Nat) :
    let found (box : Option (Cls × (List (BitVec w) → List (BitVec w)))) (g : List (BitVec w) → BitVec w → BitVec w) : Prop :=
      ∃ r, simpleSolve P.asm (problem w P.asm enc 2 box g) solve a0 = .ok (some r) ∧ RuleRight P (boxIr w 2 box g) (pe w P.asm) r
    found none (fun xs _ => xs[0]?.getD 0 + xs[1]?.getD 0) ∧ found (some (.add, id)) (fun _ y => y) ∧
    simpleSolve P.asm (problem w P.asm enc 2 (some (.mul, id)) (fun _ y => y)) solve a0 = .ok none := by
  intro found
  have hsome : ∀ k : Cls, k.arity = 2 → BoxOk w 2 (some (k, id)) := by
    rintro k hk k' h e xs hl
    cases e
    rw [hk]
    exact hl
  refine ⟨?_, ?_, ?_⟩
  · obtain ⟨r, h1, _, h2⟩ := (C94_mapped P hP enc hw 2 (by decide) none (by rintro k h ⟨⟩) (fun xs _ => xs[0]?.getD 0 + xs[1]?.getD 0) solve hsat hcomp a0).1 ⟨rfl, .inl fun _ _ _ _ => rfl⟩
    exact ⟨r, h1, h2⟩
  · obtain ⟨r, h1, _, h2⟩ := (C94_mapped P hP enc hw 2 (by decide) (some (.add, id)) (hsome _ rfl) (fun _ y => y) solve hsat hcomp a0).1 ⟨rfl, .inr ⟨id, rfl, fun _ _ _ => rfl, .inl fun _ _ => rfl⟩⟩
    exact ⟨r, h1, h2⟩
  · exact (C94_mapped P hP enc hw 2 (by decide) (some (.mul, id)) (hsome _ rfl) (fun _ y => y) solve hsat hcomp a0).2 (other_unfit hw (by decide) 2 id)

/-- A sum with a box that does not matter, and the adder with its inputs swapped, fit; the sum of a word with itself, and the sum added to the adder's output, do not. -/
example : Fits 8 2 (some (.sqrt, fun xs => [xs[0]?.getD 0])) (fun xs _ => xs[0]?.getD 0 + xs[1]?.getD 0) := ⟨rfl, .inl fun _ _ _ _ => rfl⟩
example : Fits 8 2 (some (.add, List.reverse)) (fun _ y => y) := ⟨rfl, .inr ⟨_, rfl, fun _ _ _ => rfl, .inr fun _ _ => rfl⟩⟩
example : BoxOk 8 2 (some (.add, List.reverse)) := by
  rintro k h e xs hl
  cases e
  simpa [Cls.arity] using hl
example : ¬ Fits 8 1 none (fun xs _ => xs[0]?.getD 0 + xs[0]?.getD 0) := fun h => by cases h.1
example : ¬ Fits 8 2 (some (.add, id)) (fun xs y => xs[0]?.getD 0 + y) := by
  rintro ⟨_, h | ⟨_, _, h, _⟩⟩
  · exact absurd (h 0 0 1 (by simp)) (by decide)
  · exact absurd (h 1 0 0) (by decide)

end Peak.FaPe
