import Verif.Spec.RuleRight
import Verif.Lemmas.FpPe
import Verif.Props.InstMapKnown
/-!
# C64: the PE of `examples/fp_pe`, with black boxes
-/

namespace Peak.FPe
open Peak Peak.Spec

/-! ## the validator -/

theorem fpu_several : SeveralRanges (enumCodes [.lit 0, .lit 2, .lit 3]).dedup := fpOp_several

theorem alu_mild : Mild aluT := ⟨1, by decide +kernel, by decide⟩
theorem fpu_mild : Mild fpuT := ⟨2, by decide +kernel, by decide⟩
theorem inst_mild : Mild instT := ⟨⟨by decide, by decide, alu_mild, fpu_mild, trivial⟩, trivial, trivial, trivial⟩

theorem accepts_alu (n : Nat) (hn : n < 8) : Accepts aluT n ↔ 1 ≤ n ∧ n ≤ 5 := by
  have hw := alu_width
  have e : (enumCodes [.lit 1, .lit 2, .lit 3, .lit 4, .lit 5]) = [1, 2, 3, 4, 5] := by decide +kernel
  have hns : ¬ SeveralRanges (enumCodes [.lit 1, .lit 2, .lit 3, .lit 4, .lit 5]).dedup := by
    intro h
    rw [e] at h
    exact h.2.1 (by decide +kernel)
  simp only [aluT, Accepts]
  rw [← aluT, hw, e, Nat.mod_eq_of_lt hn, e.symm]
  simp only [hns, false_or]
  rw [e]
  simp only [List.mem_cons, List.not_mem_nil, or_false]
  omega

theorem accepts_inst {k op imm u : Nat} (h : RHas instT (.prod [.sum k (.leaf op), .leaf imm, .leaf u])) :
    Accepts instT (rawCode instT (.prod [.sum k (.leaf op), .leaf imm, .leaf u])) ↔ (k = 0 → 1 ≤ op ∧ op ≤ 5) := by
  obtain ⟨k', op', imm', u', e, hk, hi, hu⟩ := inst_shape h
  cases e
  rw [Acc.accepts_leaves _ _ inst_wf h]
  have h1 : ∀ i, Accepts (.bv 0 16) i := fun _ => trivial
  have h2 : ∀ i, Accepts (.bit 0) i := fun _ => trivial
  rcases hk with ⟨rfl, ho⟩ | ⟨rfl, ho⟩
  · have e : rawLeaves instT (.prod [.sum (0 : Nat) (.leaf op), .leaf imm, .leaf u]) = [([0, 0], aluT, op), ([1], .bv 0 16, imm), ([2], .bit 0, u)] := by
      simp [instT, opT, aluT, rawLeaves, rawLeavesAll, rawLeavesAt]
    rw [e]
    simp [h1, h2, accepts_alu op ho]
  · have e : rawLeaves instT (.prod [.sum (1 : Nat) (.leaf op), .leaf imm, .leaf u]) = [([0, 1], fpuT, op), ([1], .bv 0 16, imm), ([2], .bit 0, u)] := by
      simp [instT, opT, fpuT, rawLeaves, rawLeavesAll, rawLeavesAt]
    have h3 : Accepts fpuT op := .inl fpu_several
    rw [e]
    simp [h1, h2, h3]

/-! ## wirings -/

/-- The sources of the inputs `a` and `b`: each of the `n` words, numbered from 1, goes to exactly one of them. -/
def Wires (n : Nat) (s1 s2 : Option Nat) : Prop :=
  (∀ q, 1 ≤ q → q ≤ n → s1 = some q ∨ s2 = some q) ∧ (∀ q, s1 = some q → 1 ≤ q ∧ q ≤ n ∧ s2 ≠ some q) ∧ ∀ q, s2 = some q → 1 ≤ q ∧ q ≤ n

theorem wires_of {n : Nat} {src : Key → Option Key} (h : IsAssignment dIn.toList (wordFields 16 1 n).toList src) : Wires n (src 1) (src 2) := by
  refine ⟨?_, ?_, ?_⟩
  · intro k h1 h2
    obtain ⟨a, ha, hs, _⟩ := h.once k (.bv 0 16) (WIr.fields_mem.mpr ⟨h1, by omega, rfl⟩)
    simp only [dIn, Fields.toList, List.map_cons, List.map_nil, List.mem_cons, List.not_mem_nil, or_false] at ha
    rcases ha with rfl | rfl
    · exact .inl hs
    · exact .inr hs
  · intro k hk
    have t := h.typed 1 (.bv 0 16) k (by simp [dIn, Fields.toList]) hk
    have := WIr.fields_mem.mp t
    refine ⟨this.1, by omega, ?_⟩
    intro hk2
    obtain ⟨a, _, _, hu⟩ := h.once k _ t
    have e1 := hu 1 (by simp [dIn, Fields.toList]) hk
    have e2 := hu 2 (by simp [dIn, Fields.toList]) hk2
    exact absurd (e1.trans e2.symm) (by decide)
  · intro k hk
    have := WIr.fields_mem.mp (h.typed 2 (.bv 0 16) k (by simp [dIn, Fields.toList]) hk)
    exact ⟨this.1, by omega⟩

/-- The assignment with these sources. -/
def srcOf (s1 s2 : Option Nat) (k : Key) : Option Key := if k = (1 : Nat) then s1 else if k = (2 : Nat) then s2 else none

theorem of_wires {n : Nat} {s1 s2 : Option Nat} (h : Wires n s1 s2) : IsAssignment dIn.toList (wordFields 16 1 n).toList (srcOf s1 s2) := by
  obtain ⟨h1, h2, h3⟩ := h
  constructor
  · intro a t q ha hq
    simp only [dIn, Fields.toList, List.mem_cons, Prod.mk.injEq, List.not_mem_nil, or_false] at ha
    rw [WIr.fields_mem]
    rcases ha with ⟨rfl, rfl⟩ | ⟨rfl, rfl⟩
    · have := h2 q hq
      exact ⟨this.1, by omega, rfl⟩
    · have := h3 q hq
      exact ⟨this.1, by omega, rfl⟩
  · intro q t hq
    obtain ⟨l1, l2, _⟩ := WIr.fields_mem.mp hq
    rcases h1 q l1 (by omega) with hs | hs
    · refine ⟨1, by simp [dIn, Fields.toList], hs, fun b hb hbq => ?_⟩
      simp only [dIn, Fields.toList, List.map_cons, List.map_nil, List.mem_cons, List.not_mem_nil, or_false] at hb
      rcases hb with rfl | rfl
      · rfl
      · exact absurd hbq (h2 q hs).2.2
    · refine ⟨2, by simp [dIn, Fields.toList], hs, fun b hb hbq => ?_⟩
      simp only [dIn, Fields.toList, List.map_cons, List.map_nil, List.mem_cons, List.not_mem_nil, or_false] at hb
      rcases hb with rfl | rfl
      · exact absurd hs (h2 q hbq).2.2
      · rfl

theorem wires_cases {n : Nat} (hn : 0 < n) {s1 s2 : Option Nat} (h : Wires n s1 s2) :
    n = 1 ∧ (s1 = some 1 ∧ s2 = none ∨ s1 = none ∧ s2 = some 1) ∨ n = 2 ∧ (s1 = some 1 ∧ s2 = some 2 ∨ s1 = some 2 ∧ s2 = some 1) := by
  obtain ⟨h1, h2, h3⟩ := h
  have a1 := h1 1 (by omega) (by omega)
  by_cases e1 : n = 1
  · subst e1
    left
    refine ⟨rfl, ?_⟩
    rcases a1 with rfl | rfl
    · left
      refine ⟨rfl, ?_⟩
      cases s2 with
      | none => rfl
      | some q =>
        have l := h3 q rfl
        have : q = 1 := by omega
        exact absurd (by rw [this]) (h2 1 rfl).2.2
    · right
      refine ⟨?_, rfl⟩
      cases s1 with
      | none => rfl
      | some q =>
        have l := h2 q rfl
        have : q = 1 := by omega
        exact absurd (by rw [this]) l.2.2
  · have a2 := h1 2 (by omega) (by omega)
    by_cases e2 : n = 2
    · right
      refine ⟨e2, ?_⟩
      rcases a1 with b1 | b1 <;> rcases a2 with b2 | b2
      · rw [b1] at b2; cases b2
      · exact .inl ⟨b1, b2⟩
      · exact .inr ⟨b2, b1⟩
      · rw [b1] at b2; cases b2
    · have a3 := h1 3 (by omega) (by omega)
      exfalso
      rcases a1 with b1 | b1 <;> rcases a2 with b2 | b2 <;> rcases a3 with b3 | b3 <;> simp_all

/-- The word at a port. -/
def pick (s : Option Nat) (xs : List Word) (z : Word) : Word :=
  match s with
  | some q => xs[q - 1]?.getD 0
  | none => z

/-- With these fields and wires the PE computes the instruction, whatever the boxes compute. -/
def Does (n : Nat) (box : Option (Cls × (List Word → List Word))) (g : List Word → Word → Word) (k op imm u : Nat) (s1 s2 : Option Nat) : Prop :=
  ∀ xs z1 z2 G, xs.length = n → g xs (boxVal G box xs) = valG k op imm u (pick s1 xs z1) (pick s2 xs z2) G

/-- The inputs that hold the words. -/
def envOf (xs : List Word) (k : Key) : Nat := (xs[(show Nat from k) - 1]?.getD 0).toNat

theorem words_env {n : Nat} {xs : List Word} (h : xs.length = n) : wordsOf n (envOf xs) = xs := by
  apply List.ext_getElem
  · simp [wordsOf, h]
  · intro j h1 h2
    simp only [wordsOf, List.getElem_map, List.getElem_range, envOf]
    have : ((j + 1 : Nat) - 1 : Nat) = j := by omega
    rw [this, List.getElem?_eq_getElem h2]
    simp

theorem words_get {n : Nat} {x : Key → Nat} {q : Nat} (h1 : 1 ≤ q) (h2 : q ≤ n) : (wordsOf n x)[q - 1]?.getD 0 = .ofNat 16 (x q) := by
  have h : q - 1 < (wordsOf n x).length := by rw [words_len]; omega
  have e : q - 1 + 1 = q := by omega
  rw [List.getElem?_eq_getElem h]
  simp [wordsOf, e]

theorem does_iff {n : Nat} {box : Option (Cls × (List Word → List Word))} {g : List Word → Word → Word} {k op imm u : Nat} {src : Key → Option Key} (hw : Wires n (src 1) (src 2)) :
    (∀ (x z : Key → Nat) (G : Cls → List Word → Word), g (wordsOf n x) (boxVal G box (wordsOf n x)) = valG k op imm u (port src x z 1) (port src x z 2) G) ↔ Does n box g k op imm u (src 1) (src 2) := by
  obtain ⟨h1, h2, h3⟩ := hw
  constructor
  · intro h xs z1 z2 G hl
    have := h (envOf xs) (fun k => if k = (1 : Nat) then z1.toNat else z2.toNat) G
    rw [words_env hl] at this
    rw [this]
    congr 1
    · simp only [port, wired]
      cases src 1 with
      | none => simp [pick]
      | some q => simp [pick, envOf]
    · simp only [port, wired]
      cases src 2 with
      | none => simp [pick]
      | some q => simp [pick, envOf]
  · intro h x z G
    rw [h (wordsOf n x) (.ofNat 16 (z 1)) (.ofNat 16 (z 2)) G (words_len n x)]
    congr 1
    · simp only [port, wired]
      cases e : src 1 with
      | none => rfl
      | some q => exact words_get (h2 q e).1 (h2 q e).2.1
    · simp only [port, wired]
      cases e : src 2 with
      | none => rfl
      | some q => exact words_get (h3 q e).1 (h3 q e).2

/-- The fields of an accepted instruction. -/
def InstOk (k op imm u : Nat) : Prop := (k = 0 ∧ 1 ≤ op ∧ op ≤ 5 ∨ k = 1 ∧ op < 4) ∧ imm < 65536 ∧ u < 2

/-- The fields as an instruction word. -/
def word (k op imm u : Nat) : RVal := .prod [.sum k (.leaf op), .leaf imm, .leaf u]

theorem of_does {A : Ty → Except Err AsmObj} {n : Nat} {box : Option (Cls × (List Word → List Word))} {g : List Word → Word → Word} {k op imm u : Nat} {s1 s2 : Option Nat}
    (hi : InstOk k op imm u) (hw : Wires n s1 s2) (h : Does n box g k op imm u s1 s2) :
    RHas instT (word k op imm u) ∧ Accepts instT (rawCode instT (word k op imm u)) ∧
      ComputesWithBoxes (boxIr n box g) (pe A) (boxFn box g) peFn (wordFields 16 1 n) dOut dIn dOut (word k op imm u) (srcOf s1 s2) (fun _ => some 0) := by
  obtain ⟨hk, hi, hu⟩ := hi
  have hr : RHas instT (.prod [.sum k (.leaf op), .leaf imm, .leaf u]) := by
    have hwa := alu_width
    have hwf := fpu_width
    refine ⟨?_, hi, hu, trivial⟩
    rcases hk with ⟨rfl, _, ho⟩ | ⟨rfl, ho⟩
    · show op < 2 ^ width aluT
      rw [hwa]; omega
    · show op < 2 ^ width fpuT
      rw [hwf]; omega
  refine ⟨hr, (accepts_inst hr).mpr ?_, of_wires hw, ⟨?_, ?_⟩, (core (out := fun _ => some 0) rfl).mpr ((does_iff (src := srcOf s1 s2) hw).mpr h)⟩
  · rintro rfl
    rcases hk with hk | hk
    · exact hk.2
    · omega
  · intro a t q ha hq
    simp only [dOut, Fields.toList, List.mem_singleton, Prod.mk.injEq] at ha
    obtain ⟨rfl, rfl⟩ := ha
    cases hq
    simp [dOut, Fields.toList]
  · intro q t hq
    simp only [dOut, Fields.toList, List.mem_singleton, Prod.mk.injEq] at hq
    obtain ⟨rfl, rfl⟩ := hq
    simp [dOut, Fields.toList]

theorem can_iff {A : Ty → Except Err AsmObj} {n : Nat} {box : Option (Cls × (List Word → List Word))} {g : List Word → Word → Word} :
    CanComputeAcceptedBoxes (boxIr n box g) (pe A) (boxFn box g) peFn instT (wordFields 16 1 n) dOut dIn dOut ↔
      ∃ k op imm u s1 s2, InstOk k op imm u ∧ Wires n s1 s2 ∧ Does n box g k op imm u s1 s2 := by
  constructor
  · rintro ⟨inst, src, out, hr, ha, hS, hO, h⟩
    obtain ⟨o, ho, hout, _⟩ := hO.once 0 (.bv 0 16) (by simp [dOut, Fields.toList])
    simp only [dOut, Fields.toList, List.map_cons, List.map_nil, List.mem_singleton] at ho
    subst ho
    obtain ⟨k, op, imm, u, rfl, hk, hi, hu⟩ := inst_shape hr
    rw [accepts_inst hr] at ha
    have hw := wires_of hS
    refine ⟨k, op, imm, u, src 1, src 2, ⟨?_, hi, hu⟩, hw, (does_iff hw).mp ((core hout).mp h)⟩
    rcases hk with ⟨e, _⟩ | hk
    · exact .inl ⟨e, ha e⟩
    · exact .inr hk
  · rintro ⟨k, op, imm, u, s1, s2, hi, hw, h⟩
    exact ⟨_, _, _, of_does hi hw h⟩

/-! ## which instructions -/

/-- If the result is that of a box of the PE, it is that of the box of the instruction, on the same inputs. -/
theorem box_eq {n : Nat} {box : Option (Cls × (List Word → List Word))} {g : List Word → Word → Word} {k0 : Cls} {args : List Word → Word → List Word}
    (h : ∀ xs z G, xs.length = n → g xs (boxVal G box xs) = G k0 (args xs z)) :
    ∃ hh, box = some (k0, hh) ∧ (∀ xs y, xs.length = n → g xs y = y) ∧ ∀ xs z, xs.length = n → hh xs = args xs z := by
  cases box with
  | none =>
    have h0 := h (List.replicate n 0) 0 (fun _ _ => 0) (by simp)
    have h1 := h (List.replicate n 0) 0 (fun _ _ => 1) (by simp)
    simp only [boxVal] at h0 h1
    rw [h0] at h1
    exact absurd h1 (by decide)
  | some kh =>
    obtain ⟨k, hh⟩ := kh
    have key : ∀ xs z, xs.length = n → k = k0 ∧ hh xs = args xs z := by
      intro xs z hl
      refine Classical.byContradiction fun hne => ?_
      have h0 := h xs z (fun _ _ => 0) hl
      have h1 := h xs z (fun k' l => if k' = k0 ∧ l = args xs z then 1 else 0) hl
      simp only [boxVal, if_neg hne] at h0 h1
      rw [h0] at h1
      simp at h1
    obtain ⟨rfl, _⟩ := key (List.replicate n 0) 0 (by simp)
    exact ⟨hh, rfl, fun xs y hl => h xs 0 (fun _ _ => y) hl, fun xs z hl => (key xs z hl).2⟩

/-- The operation of a code. -/
theorem alu_op {op : Nat} (h1 : 1 ≤ op) (h2 : op ≤ 5) : ∃ o : AOp, ∀ a b, aluNum op a b = o.eval a b := by
  have : op = 1 ∨ op = 2 ∨ op = 3 ∨ op = 4 ∨ op = 5 := by omega
  rcases this with rfl | rfl | rfl | rfl | rfl
  · exact ⟨.add, fun _ _ => rfl⟩
  · exact ⟨.sub, fun _ _ => rfl⟩
  · exact ⟨.or, fun _ _ => rfl⟩
  · exact ⟨.and, fun _ _ => rfl⟩
  · exact ⟨.xor, fun _ _ => rfl⟩

theorem op_alu (o : AOp) : ∃ op, 1 ≤ op ∧ op ≤ 5 ∧ ∀ a b, aluNum op a b = o.eval a b := by
  cases o
  · exact ⟨1, by decide, by decide, fun _ _ => rfl⟩
  · exact ⟨2, by decide, by decide, fun _ _ => rfl⟩
  · exact ⟨3, by decide, by decide, fun _ _ => rfl⟩
  · exact ⟨4, by decide, by decide, fun _ _ => rfl⟩
  · exact ⟨5, by decide, by decide, fun _ _ => rfl⟩

/-- The values the box may have. -/
theorem box_any {n : Nat} {box : Option (Cls × (List Word → List Word))} {g : List Word → Word → Word} {v : List Word → Word → Word}
    (h : ∀ xs z (G : Cls → List Word → Word), xs.length = n → g xs (boxVal G box xs) = v xs z) : ∀ xs y z, xs.length = n → (box = none → y = 0) → g xs y = v xs z := by
  intro xs y z hl hy
  have := h xs z (fun _ _ => y) hl
  cases box with
  | none =>
    rw [hy rfl]
    exact this
  | some kh => exact this

theorem list_one {xs : List Word} (h : xs.length = 1) : ∃ x, xs = [x] := by
  match xs, h with
  | [x], _ => exact ⟨x, rfl⟩

theorem list_two {xs : List Word} (h : xs.length = 2) : ∃ x y, xs = [x, y] := by
  match xs, h with
  | [x, y], _ => exact ⟨x, y, rfl⟩

/-- With an operand that is not bound the result is not determined. -/
theorem right_free (o : AOp) : ∃ x : Word, o.eval x 0 ≠ o.eval x 1 := by
  cases o
  · exact ⟨0, by decide⟩
  · exact ⟨0, by decide⟩
  · exact ⟨0, by decide⟩
  · exact ⟨1, by decide⟩
  · exact ⟨0, by decide⟩

theorem left_free (o : AOp) : ∃ x : Word, o.eval 0 x ≠ o.eval 1 x := by
  cases o
  · exact ⟨0, by decide⟩
  · exact ⟨0, by decide⟩
  · exact ⟨0, by decide⟩
  · exact ⟨1, by decide⟩
  · exact ⟨0, by decide⟩

/-- What the wirings give the operands: `a` and `b` are operands the PE can be given, or one of them is free. -/
theorem operands_of {n imm u : Nat} (hn : 0 < n) {s1 s2 : Option Nat} (hw : Wires n s1 s2) :
    (∃ a b, Operands n a b ∧ ∀ xs z, xs.length = n → pick s1 xs z = a xs ∧ snd imm u (pick s2 xs z) = b xs) ∨
    (n = 1 ∧ u ≠ 1 ∧ ∀ x z, pick s1 [x] z = x ∧ snd imm u (pick s2 [x] z) = z) ∨
    (n = 1 ∧ ∀ x z, pick s1 [x] z = z ∧ snd imm u (pick s2 [x] z) = snd imm u x) := by
  by_cases hu : u = 1
  · have hs : ∀ b, snd imm u b = .ofNat 16 imm := by intro b; simp [snd, hu]
    rcases wires_cases hn hw with ⟨rfl, ⟨rfl, rfl⟩ | ⟨rfl, rfl⟩⟩ | ⟨rfl, ⟨rfl, rfl⟩ | ⟨rfl, rfl⟩⟩
    · refine .inl ⟨fun xs => xs[0]?.getD 0, fun _ => .ofNat 16 imm, .inr (.inr ⟨by decide, 0, by decide, _, fun xs hl => ⟨?_, rfl⟩⟩), fun xs z _ => ⟨rfl, hs _⟩⟩
      obtain ⟨x, rfl⟩ := list_one hl
      rfl
    · exact .inr (.inr ⟨rfl, fun x z => ⟨rfl, by rw [hs, hs]⟩⟩)
    · refine .inl ⟨fun xs => xs[0]?.getD 0, fun _ => .ofNat 16 imm, .inr (.inr ⟨by decide, 0, by decide, _, fun xs hl => ⟨?_, rfl⟩⟩), fun xs z _ => ⟨rfl, hs _⟩⟩
      obtain ⟨x, y, rfl⟩ := list_two hl
      rfl
    · refine .inl ⟨fun xs => xs[1]?.getD 0, fun _ => .ofNat 16 imm, .inr (.inr ⟨by decide, 1, by decide, _, fun xs hl => ⟨?_, rfl⟩⟩), fun xs z _ => ⟨rfl, hs _⟩⟩
      obtain ⟨x, y, rfl⟩ := list_two hl
      rfl
  · have hs : ∀ b, snd imm u b = b := by intro b; simp [snd, hu]
    rcases wires_cases hn hw with ⟨rfl, ⟨rfl, rfl⟩ | ⟨rfl, rfl⟩⟩ | ⟨rfl, ⟨rfl, rfl⟩ | ⟨rfl, rfl⟩⟩
    · exact .inr (.inl ⟨rfl, hu, fun x z => ⟨rfl, hs _⟩⟩)
    · exact .inr (.inr ⟨rfl, fun x z => ⟨rfl, rfl⟩⟩)
    · exact .inl ⟨fun xs => xs[0]?.getD 0, fun xs => xs[1]?.getD 0, .inl ⟨rfl, fun x y => ⟨rfl, rfl⟩⟩, fun xs z _ => ⟨rfl, hs _⟩⟩
    · exact .inl ⟨fun xs => xs[1]?.getD 0, fun xs => xs[0]?.getD 0, .inr (.inl ⟨rfl, fun x y => ⟨rfl, rfl⟩⟩), fun xs z _ => ⟨rfl, hs _⟩⟩

/-- The first of the operands is one of the words. -/
theorem fst_word {n : Nat} {a b : List Word → Word} (h : Operands n a b) : n ≤ 2 ∧ ∃ i < n, ∀ xs, xs.length = n → xs[i]? = some (a xs) := by
  rcases h with ⟨rfl, h⟩ | ⟨rfl, h⟩ | ⟨hn, i, hi, c, h⟩
  · refine ⟨by decide, 0, by decide, fun xs hl => ?_⟩
    obtain ⟨x, y, rfl⟩ := list_two hl
    simp [(h x y).1]
  · refine ⟨by decide, 1, by decide, fun xs hl => ?_⟩
    obtain ⟨x, y, rfl⟩ := list_two hl
    simp [(h x y).1]
  · exact ⟨hn, i, hi, fun xs hl => (h xs hl).1⟩

theorem fits_of {n : Nat} (hn : 0 < n) {box : Option (Cls × (List Word → List Word))} {g : List Word → Word → Word} {k op imm u : Nat} {s1 s2 : Option Nat} (hi : InstOk k op imm u)
    (hw : Wires n s1 s2) (h : Does n box g k op imm u s1 s2) : Fits n box g := by
  obtain ⟨hk, _, _⟩ := hi
  have hd : ∀ xs z G, xs.length = n → g xs (boxVal G box xs) = valG k op imm u (pick s1 xs z) (pick s2 xs z) G := fun xs z G hl => h xs z z G hl
  rcases hk with ⟨rfl, ho1, ho5⟩ | ⟨rfl, ho⟩
  · obtain ⟨o, ho⟩ := alu_op ho1 ho5
    have key := box_any (box := box) (g := g) (v := fun xs z => o.eval (pick s1 xs z) (snd imm u (pick s2 xs z))) (fun xs z G hl => by
      rw [hd xs z G hl, ← ho]
      rfl)
    rcases operands_of (imm := imm) (u := u) hn hw with ⟨a, b, hab, e⟩ | ⟨rfl, _, e⟩ | ⟨rfl, e⟩
    · refine .inl ⟨o, a, b, hab, fun xs y hl hy => ?_⟩
      have := key xs y 0 hl hy
      rw [(e xs 0 hl).1, (e xs 0 hl).2] at this
      exact this
    · obtain ⟨x, hx⟩ := right_free o
      have h0 := key [x] 0 0 rfl (fun _ => rfl)
      have h1 := key [x] 0 1 rfl (fun _ => rfl)
      simp only [(e x _).1, (e x _).2] at h0 h1
      exact absurd (h0.symm.trans h1) hx
    · by_cases hu : u = 1
      · have hs : ∀ b, snd imm u b = .ofNat 16 imm := by intro b; simp [snd, hu]
        refine .inl ⟨o, fun xs => xs[0]?.getD 0, fun _ => .ofNat 16 imm, .inr (.inr ⟨by decide, 0, by decide, _, fun xs hl => ⟨?_, rfl⟩⟩), fun xs y hl hy => ?_⟩
        · obtain ⟨x, rfl⟩ := list_one hl
          rfl
        · obtain ⟨x, rfl⟩ := list_one hl
          have := key [x] y x hl hy
          simp only [(e x _).1, hs] at this
          exact this
      · have hs : ∀ b, snd imm u b = b := by intro b; simp [snd, hu]
        obtain ⟨x, hx⟩ := left_free o
        have h0 := key [x] 0 0 rfl (fun _ => rfl)
        have h1 := key [x] 0 1 rfl (fun _ => rfl)
        simp only [(e x _).1, (e x _).2, hs] at h0 h1
        exact absurd (h0.symm.trans h1) hx
  · -- a box of the PE
    have two : ∀ k0 : Cls, (k0 = .add ∨ k0 = .mul) → (∀ xs z G, xs.length = n → g xs (boxVal G box xs) = G k0 [pick s1 xs z, snd imm u (pick s2 xs z)]) → Fits n box g := by
      intro k0 hk0 hg
      obtain ⟨hh, e1, e2, e3⟩ := box_eq (args := fun xs z => [pick s1 xs z, snd imm u (pick s2 xs z)]) hg
      rcases operands_of (imm := imm) (u := u) hn hw with ⟨a, b, hab, e⟩ | ⟨rfl, _, e⟩ | ⟨rfl, e⟩
      · refine .inr ⟨k0, hh, e1, e2, .inl ⟨hk0, a, b, hab, fun xs hl => ?_⟩⟩
        rw [e3 xs 0 hl, (e xs 0 hl).1, (e xs 0 hl).2]
      · have h0 := e3 [0] 0 rfl
        have h1 := e3 [0] 1 rfl
        rw [(e 0 _).1, (e 0 _).2] at h0 h1
        rw [h0] at h1
        exact absurd h1 (by decide)
      · have h0 := e3 [0] 0 rfl
        have h1 := e3 [0] 1 rfl
        rw [(e 0 _).1, (e 0 _).2] at h0 h1
        rw [h0] at h1
        exact absurd (List.cons.inj h1).1 (by decide)
    by_cases o0 : op = 0
    · refine two .add (.inl rfl) (fun xs z G hl => ?_)
      rw [hd xs z G hl, o0]
      rfl
    · by_cases o2 : op = 2
      · refine two .mul (.inr rfl) (fun xs z G hl => ?_)
        rw [hd xs z G hl, o2]
        rfl
      · obtain ⟨hh, e1, e2, e3⟩ := box_eq (box := box) (g := g) (k0 := .sqrt) (args := fun xs z => [pick s1 xs z]) (fun xs z G hl => by
          rw [hd xs z G hl]
          simp [valG, val, fpuNum, o0, o2])
        rcases operands_of (imm := imm) (u := u) hn hw with ⟨a, b, hab, e⟩ | ⟨rfl, _, e⟩ | ⟨rfl, e⟩
        · obtain ⟨h2, i, hi, hf⟩ := fst_word hab
          refine .inr ⟨.sqrt, hh, e1, e2, .inr ⟨rfl, h2, i, hi, fun xs hl => ⟨a xs, hf xs hl, ?_⟩⟩⟩
          rw [e3 xs 0 hl, (e xs 0 hl).1]
        · refine .inr ⟨.sqrt, hh, e1, e2, .inr ⟨rfl, by decide, 0, by decide, fun xs hl => ?_⟩⟩
          obtain ⟨x, rfl⟩ := list_one hl
          refine ⟨x, rfl, ?_⟩
          rw [e3 [x] 0 rfl, (e x 0).1]
        · have h0 := e3 [0] 0 rfl
          have h1 := e3 [0] 1 rfl
          rw [(e 0 _).1] at h0 h1
          rw [h0] at h1
          exact absurd h1 (by decide)

/-- Wires and fields for operands. -/
theorem wires_for {n : Nat} {a b : List Word → Word} (h : Operands n a b) :
    ∃ imm u s1 s2, imm < 65536 ∧ u < 2 ∧ Wires n s1 s2 ∧ ∀ xs z1 z2, xs.length = n → pick s1 xs z1 = a xs ∧ snd imm u (pick s2 xs z2) = b xs := by
  have w12 : Wires 2 (some 1) (some 2) := by
    refine ⟨fun q h1 h2 => ?_, fun q hq => ?_, fun q hq => ?_⟩
    · have : q = 1 ∨ q = 2 := by omega
      rcases this with rfl | rfl <;> simp
    · cases hq; simp
    · cases hq; simp
  have w21 : Wires 2 (some 2) (some 1) := by
    refine ⟨fun q h1 h2 => ?_, fun q hq => ?_, fun q hq => ?_⟩
    · have : q = 1 ∨ q = 2 := by omega
      rcases this with rfl | rfl <;> simp
    · cases hq; simp
    · cases hq; simp
  have w1 : Wires 1 (some 1) none := by
    refine ⟨fun q h1 h2 => ?_, fun q hq => ?_, fun q hq => ?_⟩
    · have : q = 1 := by omega
      rw [this]; simp
    · cases hq; simp
    · cases hq
  rcases h with ⟨rfl, h⟩ | ⟨rfl, h⟩ | ⟨hn, i, hi, c, h⟩
  · refine ⟨0, 0, some 1, some 2, by decide, by decide, w12, fun xs z1 z2 hl => ?_⟩
    obtain ⟨x, y, rfl⟩ := list_two hl
    rw [(h x y).1, (h x y).2]
    exact ⟨rfl, rfl⟩
  · refine ⟨0, 0, some 2, some 1, by decide, by decide, w21, fun xs z1 z2 hl => ?_⟩
    obtain ⟨x, y, rfl⟩ := list_two hl
    rw [(h x y).1, (h x y).2]
    exact ⟨rfl, rfl⟩
  · have hc : ∀ w, snd c.toNat 1 w = c := by intro w; simp [snd]
    have hp : ∀ xs, xs.length = n → xs[i]?.getD 0 = a xs := by
      intro xs hl
      rw [(h xs hl).1]
      rfl
    have : ∃ s2, Wires n (some (i + 1)) s2 := by
      have : n = 1 ∧ i = 0 ∨ n = 2 ∧ i = 0 ∨ n = 2 ∧ i = 1 := by omega
      rcases this with ⟨rfl, rfl⟩ | ⟨rfl, rfl⟩ | ⟨rfl, rfl⟩
      · exact ⟨none, w1⟩
      · exact ⟨some 2, w12⟩
      · exact ⟨some 1, w21⟩
    obtain ⟨s2, hw⟩ := this
    exact ⟨c.toNat, 1, some (i + 1), s2, c.isLt, by decide, hw, fun xs z1 z2 hl => ⟨hp xs hl, by rw [hc, (h xs hl).2]⟩⟩

theorem of_fits {n : Nat} {box : Option (Cls × (List Word → List Word))} {g : List Word → Word → Word} (h : Fits n box g) :
    ∃ k op imm u s1 s2, InstOk k op imm u ∧ Wires n s1 s2 ∧ Does n box g k op imm u s1 s2 := by
  rcases h with ⟨o, a, b, hab, h⟩ | ⟨k, hh, rfl, hg, ⟨hk, a, b, hab, h⟩ | ⟨rfl, hn, i, hi, h⟩⟩
  · obtain ⟨imm, u, s1, s2, h1, h2, hw, e⟩ := wires_for hab
    obtain ⟨op, ho1, ho5, ho⟩ := op_alu o
    refine ⟨0, op, imm, u, s1, s2, ⟨.inl ⟨rfl, ho1, ho5⟩, h1, h2⟩, hw, fun xs z1 z2 G hl => ?_⟩
    rw [h xs _ hl (by rintro rfl; rfl), ← (e xs z1 z2 hl).1, ← (e xs z1 z2 hl).2, ← ho]
    rfl
  · obtain ⟨imm, u, s1, s2, h1, h2, hw, e⟩ := wires_for hab
    rcases hk with rfl | rfl
    · refine ⟨1, 0, imm, u, s1, s2, ⟨.inr ⟨rfl, by decide⟩, h1, h2⟩, hw, fun xs z1 z2 G hl => ?_⟩
      rw [hg xs _ hl]
      simp only [boxVal]
      rw [h xs hl, ← (e xs z1 z2 hl).1, ← (e xs z1 z2 hl).2]
      rfl
    · refine ⟨1, 2, imm, u, s1, s2, ⟨.inr ⟨rfl, by decide⟩, h1, h2⟩, hw, fun xs z1 z2 G hl => ?_⟩
      rw [hg xs _ hl]
      simp only [boxVal]
      rw [h xs hl, ← (e xs z1 z2 hl).1, ← (e xs z1 z2 hl).2]
      rfl
  · have hab : Operands n (fun xs => xs[i]?.getD 0) (fun _ => 0) := by
      refine .inr (.inr ⟨hn, i, hi, 0, fun xs hl => ⟨?_, rfl⟩⟩)
      obtain ⟨x, hx, _⟩ := h xs hl
      simp [hx]
    obtain ⟨imm, u, s1, s2, h1, h2, hw, e⟩ := wires_for hab
    refine ⟨1, 3, imm, u, s1, s2, ⟨.inr ⟨rfl, by decide⟩, h1, h2⟩, hw, fun xs z1 z2 G hl => ?_⟩
    obtain ⟨x, hx, hh'⟩ := h xs hl
    rw [hg xs _ hl]
    simp only [boxVal]
    rw [hh']
    have := (e xs z1 z2 hl).1
    simp only [hx, Option.getD_some] at this
    rw [← this]
    rfl

theorem known {P : Process} (hP : MildProcess P) : Known P instT := by
  intro t' ht
  rcases List.mem_cons.mp ht with rfl | ht
  · exact ⟨inst_wf, inst_mild⟩
  · exact hP _ _ ht

theorem known_leaves {P : Process} (hP : MildProcess P) : ∀ p c ms, (p, Ty.enum c ms) ∈ leafTypes instT [] → Known P (.enum c ms) := by
  intro p c ms h t' ht
  rcases List.mem_cons.mp ht with rfl | ht
  · have hm : Ty.enum c ms = aluT ∨ Ty.enum c ms = fpuT := by
      have h' : (p, Ty.enum c ms) ∈ [([0, 0], aluT), ([0, 1], fpuT), ([1], .bv 0 16), ([2], .bit 0)] := h
      simp only [List.mem_cons, List.not_mem_nil, or_false, Prod.mk.injEq, reduceCtorEq, and_false] at h'
      rcases h' with ⟨_, h'⟩ | ⟨_, h'⟩
      · exact .inl h'
      · exact .inr h'
    rcases hm with hm | hm
    · rw [hm]
      exact ⟨alu_wf, alu_mild⟩
    · rw [hm]
      exact ⟨fpu_wf, fpu_mild⟩
  · exact hP _ _ ht

/-- C64: the search, with `simple_formula=True` and a sound and complete solver, for an IR instruction on words with at most one black box. It returns a correct mapping if the instruction is one of those that
the PE can compute, and `None` otherwise; it does not raise. -/
theorem C64_mapped (P : Process) (hP : MildProcess P) (enc : IEnc) (n : Nat) (hn : 0 < n) (box : Option (Cls × (List Word → List Word))) (hb : BoxOk n box) (g : List Word → Word → Word)
    (solve : (SAsg Nat → Prop) → Option (SAsg Nat)) (hsat : ∀ φ a, solve φ = some a → φ a) (hcomp : ∀ φ a, φ a → ∃ a', solve φ = some a') (a0 : SAsg Nat) :
    (Fits n box g → ∃ r, simpleSolve P.asm (problem P.asm enc n box g) solve a0 = .ok (some r) ∧ IsMapping P.asm (problem P.asm enc n box g) r ∧
      RuleRight P (boxIr n box g) (pe P.asm) r) ∧
    (¬ Fits n box g → simpleSolve P.asm (problem P.asm enc n box g) solve a0 = .ok none) := by
  have key := C55_instruction_known P (problem P.asm enc n box g) (boxFn box g) peFn inW 0 instT (wordFields 16 1 n) dOut dIn dOut (shape P.asm enc n box g) (setup P enc hn box hb g) (pe_total P)
    (pe_boxes P) (known hP) (known_leaves hP) solve hsat hcomp a0
  have e : CanComputeAcceptedBoxes (problem P.asm enc n box g).ir (problem P.asm enc n box g).arch (boxFn box g) peFn instT (wordFields 16 1 n) dOut dIn dOut ↔ Fits n box g := by
    refine (can_iff (A := P.asm)).trans ⟨?_, of_fits⟩
    rintro ⟨k, op, imm, u, s1, s2, hi, hw, h⟩
    exact fits_of hn hi hw h
  rw [e] at key
  exact right_of (setup P enc hn box hb g) key

/-- A function of two words that depends on both and is none of the ALU's operations does not fit: multiplication. -/
theorem mul_unfit : ¬ Fits 2 none (fun xs _ => xs[0]?.getD 0 * xs[1]?.getD 0) := by
  rintro (⟨op, a, b, hab, h⟩ | ⟨k, h, e, _⟩)
  · have h' : ∀ x y : Word, x * y = op.eval (a [x, y]) (b [x, y]) := fun x y => h [x, y] 0 rfl (fun _ => rfl)
    rcases hab with ⟨_, hab⟩ | ⟨_, hab⟩ | ⟨_, i, hi, c, hab⟩
    · have h1 := h' 1 1
      have h2 := h' 2 2
      rw [(hab _ _).1, (hab _ _).2] at h1 h2
      cases op <;> first | exact absurd h1 (by decide) | exact absurd h2 (by decide)
    · have h1 := h' 1 1
      have h2 := h' 2 2
      rw [(hab _ _).1, (hab _ _).2] at h1 h2
      cases op <;> first | exact absurd h1 (by decide) | exact absurd h2 (by decide)
    · have ha : ∀ x y : Word, some (a [x, y]) = [x, y][i]? := fun x y => ((hab [x, y] rfl).1).symm
      have hb : ∀ x y : Word, b [x, y] = c := fun x y => (hab [x, y] rfl).2
      have h11 := h' 1 1
      have : i = 0 ∨ i = 1 := by omega
      rcases this with rfl | rfl
      · have e1 : a [1, 1] = (1 : Word) := Option.some.inj (ha 1 1)
        have e2 : a [1, 0] = (1 : Word) := Option.some.inj (ha 1 0)
        have h10 := h' 1 0
        rw [e1, hb] at h11
        rw [e2, hb, ← h11] at h10
        exact absurd h10 (by decide)
      · have e1 : a [1, 1] = (1 : Word) := Option.some.inj (ha 1 1)
        have e2 : a [0, 1] = (1 : Word) := Option.some.inj (ha 0 1)
        have h01 := h' 0 1
        rw [e1, hb] at h11
        rw [e2, hb, ← h11] at h01
        exact absurd h01 (by decide)
  · cases e

/-- A box of a class the PE has not, whose output is the result, does not fit. -/
theorem other_unfit (id m n : Nat) (h : List Word → List Word) (hn : 0 < n) : ¬ Fits n (some (.other id m, h)) (fun _ y => y) := by
  rintro (⟨op, a, b, hab, h'⟩ | ⟨k, h', e, _, ⟨hk, _⟩ | ⟨hk, _⟩⟩)
  · have h0 := h' (List.replicate n 0) 0 (by simp) (by simp)
    have h1 := h' (List.replicate n 0) 1 (by simp) (by simp)
    have h01 : (0 : Word) = 1 := h0.trans h1.symm
    exact absurd h01 (by decide)
  · cases e
    rcases hk with hk | hk <;> cases hk
  · cases e
    cases hk

/-- A class of `fplib` as an IR instruction. -/
abbrev boxOnly (k : Cls) : Option (Cls × (List Word → List Word)) := some (k, id)

/-- C64: the instructions of tests/test_black_box_rr.py:71-90 with the answers given there, for every sound and complete solver: `Add`, `Sub` and the three floating-point operations are found, with a rule that
is correct, and `Mul` is not. -/
theorem C64_test_rr (P : Process) (hP : MildProcess P) (enc : IEnc) (solve : (SAsg Nat → Prop) → Option (SAsg Nat)) (hsat : ∀ φ a, solve φ = some a → φ a)
    (hcomp : ∀ φ a, φ a → ∃ a', solve φ = some a') (a0 : SAsg Nat) :
    let found (n : Nat) (box : Option (Cls × (List Word → List Word))) (g : List Word → Word → Word) : Prop :=
      ∃ r, simpleSolve P.asm (problem P.asm enc n box g) solve a0 = .ok (some r) ∧ RuleRight P (boxIr n box g) (pe P.asm) r
    found 2 none (fun xs _ => xs[0]?.getD 0 + xs[1]?.getD 0) ∧
    found 2 none (fun xs _ => xs[0]?.getD 0 - xs[1]?.getD 0) ∧
    simpleSolve P.asm (problem P.asm enc 2 none (fun xs _ => xs[0]?.getD 0 * xs[1]?.getD 0)) solve a0 = .ok none ∧
    found 2 (boxOnly .add) (fun _ y => y) ∧ found 2 (boxOnly .mul) (fun _ y => y) ∧ found 1 (boxOnly .sqrt) (fun _ y => y) := by
  intro found
  have go : ∀ n box g, 0 < n → BoxOk n box → Fits n box g → found n box g := by
    intro n box g hn hb hf
    obtain ⟨r, h1, _, h2⟩ := (C64_mapped P hP enc n hn box hb g solve hsat hcomp a0).1 hf
    exact ⟨r, h1, h2⟩
  have hid : ∀ xs : List Word, xs.length = 2 → id xs = [xs[0]?.getD 0, xs[1]?.getD 0] := by
    intro xs hl
    obtain ⟨x, y, rfl⟩ := list_two hl
    rfl
  have hab : Operands 2 (fun xs => xs[0]?.getD 0) (fun xs => xs[1]?.getD 0) := .inl ⟨rfl, fun _ _ => ⟨rfl, rfl⟩⟩
  have hnone : BoxOk 2 none := by rintro k h ⟨⟩
  have hsome : ∀ (k : Cls) n, k.arity = n → BoxOk n (boxOnly k) := by
    rintro k n rfl k' h e xs hl
    cases e
    exact hl
  refine ⟨go _ _ _ (by decide) hnone (.inl ⟨.add, _, _, hab, fun xs y _ _ => rfl⟩), go _ _ _ (by decide) hnone (.inl ⟨.sub, _, _, hab, fun xs y _ _ => rfl⟩), ?_,
    go _ _ _ (by decide) ?_ (.inr ⟨.add, id, rfl, fun _ _ _ => rfl, .inl ⟨.inl rfl, _, _, hab, hid⟩⟩), go _ _ _ (by decide) ?_ (.inr ⟨.mul, id, rfl, fun _ _ _ => rfl, .inl ⟨.inr rfl, _, _, hab, hid⟩⟩),
    go _ _ _ (by decide) ?_ (.inr ⟨.sqrt, id, rfl, fun _ _ _ => rfl, .inr ⟨rfl, by decide, 0, by decide, fun xs hl => ?_⟩⟩)⟩
  · exact (C64_mapped P hP enc 2 (by decide) none hnone _ solve hsat hcomp a0).2 mul_unfit
  · exact hsome _ 2 rfl
  · exact hsome _ 2 rfl
  · exact hsome _ 1 rfl
  · obtain ⟨x, rfl⟩ := list_one hl
    exact ⟨x, rfl, rfl⟩

/-- The assembler of `FPU_op` disassembles no value from the code 1. -/
theorem no_member (P : Process) : ∃ o, P.asm fpuT = .ok o ∧ ∀ v, o.disassemble (BV.ofNat 2 1) ≠ .ok v := by
  obtain ⟨o, ho, hg⟩ := P.good fpu_wf
  refine ⟨o, ho, fun v hd => ?_⟩
  have hr := hg.disassemble_sound (by decide +kernel) hd
  have hh := reads_has _ _ _ hr
  cases v with
  | enum e =>
    simp only [fpuT, Ty.Has, List.mem_cons, List.not_mem_nil, or_false] at hh
    simp only [fpuT, Reads] at hr
    rcases hh with rfl | rfl | rfl <;> exact absurd hr (by decide +kernel)
  | _ => simp [fpuT, Reads] at hr

/-- C64: the instruction in a rule need not be one of the ISA. `FPU_op` has the codes 0, 2 and 3, its validator accepts 1 too, and the FPU then returns the square root: with some sound and complete
solver the mapper finds the square root with operation 1, which the assembler of `FPU_op` does not disassemble. -/
theorem C64_violated_opcode (P : Process) (hP : MildProcess P) (enc : IEnc) :
    ∃ solve : (SAsg Nat → Prop) → Option (SAsg Nat), (∀ φ a, solve φ = some a → φ a) ∧ (∀ φ a, φ a → ∃ a', solve φ = some a') ∧
      ∀ a0, ∃ r, simpleSolve P.asm (problem P.asm enc 1 (boxOnly .sqrt) (fun _ y => y)) solve a0 = .ok (some r) ∧ (RSrc.const (.bits (BV.ofNat 2 1)), [0, 0, 1]) ∈ r.ib ∧
        ∃ o, P.asm fpuT = .ok o ∧ ∀ v, o.disassemble (BV.ofNat 2 1) ≠ .ok v := by
  have hb : BoxOk 1 (boxOnly .sqrt) := by
    rintro k h e xs hl
    cases e
    exact hl
  have hw : Wires 1 (some 1) none := by
    refine ⟨fun q h1 h2 => ?_, fun q hq => ?_, fun q hq => ?_⟩
    · have : q = 1 := by omega
      rw [this]; simp
    · cases hq; simp
    · cases hq
  have hd : Does 1 (boxOnly .sqrt) (fun _ y => y) 1 1 0 0 (some 1) none := by
    intro xs z1 z2 G hl
    obtain ⟨x, rfl⟩ := list_one hl
    rfl
  obtain ⟨hr, ha, hc⟩ := of_does (A := P.asm) (⟨.inr ⟨rfl, by decide⟩, by decide, by decide⟩ : InstOk 1 1 0 0) hw hd
  have hv := ((known hP).valid_iff _ (SB.code_lt _ _ inst_wf hr)).mpr ha
  obtain ⟨solve, h1, h2, h3⟩ := C55_any_instruction P (problem P.asm enc 1 (boxOnly .sqrt) (fun _ y => y)) (boxFn (boxOnly .sqrt) (fun _ y => y)) peFn inW 0 instT (wordFields 16 1 1) dOut dIn dOut
    (shape P.asm enc 1 _ _) (setup P enc (by decide) _ hb _) (pe_total P) (pe_boxes P) ((known hP).leaves (known_leaves hP)) _ _ _ hr hv hc
  refine ⟨solve, h1, h2, fun a0 => ?_⟩
  obtain ⟨r, hr, hl⟩ := h3 a0
  obtain ⟨c, hcm, hcs⟩ := hl [0, 1] fpuT 1 (by simp [word, instT, opT, fpuT, rawLeaves, rawLeavesAll, rawLeavesAt])
  refine ⟨r, hr, ?_, no_member P⟩
  cases c with
  | bits b =>
    obtain ⟨_, e1, e2⟩ := hcs
    rw [fpu_width] at e1
    have : b = BV.ofNat 2 1 := BV.ext e1 e2
    rw [← this]
    exact hcm
  | bit b =>
    obtain ⟨⟨x, hx⟩, _⟩ := hcs
    simp [fpuT] at hx

/-- The hypothesis on the process: one that has built no assembler, and one that has built that of this PE's instructions. -/
example (P : Process) (h : ∀ t, P.hist t = []) : MildProcess P := fun t t' ht => by rw [h] at ht; cases ht
example (P : Process) (h : ∀ t, P.hist t = [instT, aluT]) : MildProcess P := fun t t' ht => by
  rw [h] at ht
  simp only [List.mem_cons, List.not_mem_nil, or_false] at ht
  rcases ht with rfl | rfl
  · exact ⟨inst_wf, inst_mild⟩
  · exact ⟨alu_wf, alu_mild⟩

/-- Others that fit: `3 - x` does not as such, but `x - 3` and `x ^ 0xffff` do; a sum of a word and a constant in the floating-point adder; the adder with its inputs swapped. -/
example : Fits 1 none (fun xs _ => xs[0]?.getD 0 - 3) :=
  .inl ⟨.sub, fun xs => xs[0]?.getD 0, fun _ => 3, .inr (.inr ⟨by decide, 0, by decide, 3, fun xs hl => ⟨by obtain ⟨x, rfl⟩ := list_one hl; rfl, rfl⟩⟩), fun _ _ _ _ => rfl⟩
example : Fits 1 (some (.mul, fun xs => [xs[0]?.getD 0, 3])) (fun _ y => y) :=
  .inr ⟨.mul, _, rfl, fun _ _ _ => rfl, .inl ⟨.inr rfl, fun xs => xs[0]?.getD 0, fun _ => 3,
    .inr (.inr ⟨by decide, 0, by decide, 3, fun xs hl => ⟨by obtain ⟨x, rfl⟩ := list_one hl; rfl, rfl⟩⟩), fun _ _ => rfl⟩⟩
example : Fits 2 (some (.add, fun xs => [xs[1]?.getD 0, xs[0]?.getD 0])) (fun _ y => y) :=
  .inr ⟨.add, _, rfl, fun _ _ _ => rfl, .inl ⟨.inl rfl, fun xs => xs[1]?.getD 0, fun xs => xs[0]?.getD 0, .inr (.inl ⟨rfl, fun _ _ => ⟨rfl, rfl⟩⟩), fun _ _ => rfl⟩⟩
/-- And others that do not: a box of another library. -/
example : ¬ Fits 2 (boxOnly (.other 7 1)) (fun _ y => y) := other_unfit 7 1 2 id (by decide)

end Peak.FPe
