import Verif.Spec.CustomPe
import Verif.Lemmas.LutPe
import Verif.Props.AddNotPe
/-!
# C93: rules for the PE of `test_custom_rr`, and mapping to it
-/

namespace Peak.CuPe
open Peak Peak.Spec

theorem op_width : width opT = 2 := by decide +kernel
theorem op_wf : WF opT := by simp [opT, WF, autos]
theorem inst_wf : WF instT := ⟨by simp [Fields.toList], op_wf, trivial, trivial⟩
theorem inst_width : width instT = 3 := by decide +kernel

theorem add_code (P : Process) {n : Nat} (hn : n < 4) : RPe.isMem P.asm (.lit 1) (mkAV opT n) = .ok (n == 1) := by
  have h := RG.isMem_code P (m := .lit 1) op_wf (by simp) (n := n) (by show n < 2 ^ width opT; rw [op_width]; exact hn)
  rw [← opT] at h
  rw [h]
  rfl

theorem inst_shape {v : RVal} (h : RHas instT v) : ∃ n s, v = .prod [.leaf n, .leaf s] ∧ n < 4 ∧ s < 2 := by
  match v, h with
  | .prod [v0, v1], ⟨h0, h1, _⟩ =>
    obtain ⟨n, rfl, hn⟩ := SPe.leaf_shape (.inr (.inr ⟨_, _, rfl⟩)) h0
    obtain ⟨s, rfl, hs⟩ := SPe.leaf_shape (.inr (.inl ⟨_, rfl⟩)) h1
    rw [← opT, op_width] at hn
    exact ⟨n, s, rfl, hn, hs⟩

theorem inst_has {n s : Nat} (h : n < 4) (hs : s < 2) : RHas instT (.prod [.leaf n, .leaf s]) := by
  refine ⟨?_, hs, trivial⟩
  have := op_width
  unfold opT at this ⊢
  simp only [RHas, this]
  exact h

theorem call_eq {w : Nat} (add sel : Bool) (x y : BitVec w) : (if sel then (if add then x + y else x - y) else ~~~ (if add then x + y else x - y)) = result add sel x y := by
  cases add <;> cases sel <;> rfl

theorem pe_computes (P : Process) (w : Nat) : Computes P (pe w P.asm) (peFn w) := by
  refine ⟨97, peIn w, 98, peOut w, rfl, rfl, ?_⟩
  intro vs bb h
  match vs, h with
  | [v0, v1, v2], ⟨h0, h1, h2, _⟩ =>
  obtain ⟨op, s, rfl, ho, hs⟩ := inst_shape h0
  obtain ⟨a, rfl, ha⟩ := SPe.leaf_shape (.inl ⟨_, _, rfl⟩) h1
  obtain ⟨b, rfl, hb⟩ := SPe.leaf_shape (.inl ⟨_, _, rfl⟩) h2
  refine ⟨_, rfl, ⟨BitVec.isLt _, BitVec.isLt _, trivial⟩, ?_⟩
  have hrun : (pe w P.asm).run (inputDict (peIn w) [.prod [.leaf op, .leaf s], .leaf a, .leaf b]) bb =
      ([.bits (BV.ofNat w (result (op == 1) (s.testBit 0) (BitVec.ofNat w a) (.ofNat w b)).toNat), .bits (BV.ofNat w (result (op == 1) (s.testBit 0) (BitVec.ofNat w a) (.ofNat w b)).toNat)], []) := by
    have g : (mkAV instT (rawCode instT (.prod [.leaf op, .leaf s]))).get P.asm 0 = .ok (mkAV opT op) :=
      RG.get_raw P (k := 0) (t := opT) (v := .leaf op) inst_wf h0 (by simp [Fields.toList])
    have g1 : (mkAV instT (rawCode instT (.prod [.leaf op, .leaf s]))).get P.asm 1 = .ok (mkAV (.bit 0) s) :=
      RG.get_raw P (k := 1) (t := .bit 0) (v := .leaf s) inst_wf h0 (by simp [Fields.toList])
    simp only [pe, peIn, inputDict, peCall, g, g1, bind, Except.bind, add_code P ho, LPe.bitOf_mk]
    simp only [mkAV, CPe.wordOf_bits, rawCode, call_eq]
  rw [hrun]
  exact ⟨⟨WIr.new_word P w _, WIr.new_word P w _, trivial⟩, rfl⟩

theorem pe_total (P : Process) (w : Nat) : Spec.Total P (pe w P.asm) := by
  refine ⟨97, peIn w, 98, peOut w, rfl, rfl, ?_⟩
  intro d bb h
  match d, h with
  | [(k0, x0), (k1, x1), (k2, x2)], ⟨_, ⟨n0, h0, e0⟩, _, ⟨n1, h1, e1⟩, _, ⟨n2, h2, e2⟩, _⟩ =>
    subst e0 e1 e2
    obtain ⟨m, hm, g⟩ := RG.get_any P (k := 0) (t := opT) inst_wf h0 (by simp [Fields.toList])
    obtain ⟨s, _, g1⟩ := RG.get_any P (k := 1) (t := .bit 0) inst_wf h0 (by simp [Fields.toList])
    rw [← instT] at g g1
    rw [op_width] at hm
    refine ⟨[.leaf (result (m == 1) (s.testBit 0) (BitVec.ofNat w n1) (.ofNat w n2)).toNat, .leaf (result (m == 1) (s.testBit 0) (BitVec.ofNat w n1) (.ofNat w n2)).toNat],
      ⟨BitVec.isLt _, BitVec.isLt _, trivial⟩, ?_⟩
    simp only [pe, peCall, g, g1, bind, Except.bind, add_code P hm, LPe.bitOf_mk]
    simp only [mkAV, CPe.wordOf_bits, call_eq]
    exact ⟨WIr.new_word P w _, WIr.new_word P w _, trivial⟩

theorem inst_buildable : Buildable instT := by
  refine ⟨by simp [Fields.toList], .inl ?_, by simp [Buildables, opT, Buildable]⟩
  intro kt hkt
  simp only [Fields.toList, List.mem_cons, List.not_mem_nil, or_false] at hkt
  rcases hkt with rfl | rfl
  · simp only [op_width]; decide
  · simp [width]

theorem setup (P : Process) {w : Nat} (hw : 0 < w) {n : Nat} (hn : 0 < n) (f : List (BitVec w) → BitVec w) :
    Setup P (wordIr w n f) (pe w P.asm) (WIr.wordFn w f) (peFn w) (fun _ => [1]) := by
  refine WIr.setup w n f hw hn (pe_computes P w) ?_ ?_ rfl ?_ rfl
  · refine ⟨⟨by simp [peIn, Fields.toList], inst_wf, trivial, trivial, trivial⟩, by simp [peIn, Fields.toList], .inl ?_, inst_buildable, trivial, trivial, trivial⟩
    intro kt hkt
    simp only [peIn, Fields.toList, List.mem_cons, List.not_mem_nil, or_false] at hkt
    rcases hkt with rfl | rfl | rfl
    · simp only [inst_width]; decide
    all_goals simpa [width] using hw
  · refine ⟨⟨by simp [peOut, Fields.toList], trivial, trivial, trivial⟩, ⟨by simp [peOut, Fields.toList], .inl ?_, trivial, trivial, trivial⟩, trivial, trivial, trivial⟩
    intro kt hkt
    simp only [peOut, Fields.toList, List.mem_cons, List.not_mem_nil, or_false] at hkt
    rcases hkt with rfl | rfl <;> simpa [width] using hw
  · intro r bb h
    simp only [peFn]
    split <;> rfl

/-! ## hand-made rules -/

theorem related_iff {w op : Nat} (ho : op < 4) (sel swap : Bool) (out : Key) (f : List (BitVec w) → BitVec w) (A : Ty → Except Err AsmObj) (ri ra : RVal) :
    Related (wordIr w 2 f).inT (pe w A).inT (rule op sel swap out).ib ri ra ↔
      ∃ x y, x < 2 ^ w ∧ y < 2 ^ w ∧ ri = .prod [.leaf x, .leaf y] ∧ ra = .prod [.prod [.leaf op, .leaf sel.toNat], .leaf (if swap then y else x), .leaf (if swap then x else y)] := by
  constructor
  · intro h
    have h1 := h.ir
    have h2 := h.arch
    match ri, h1 with
    | .prod [u, v], ⟨hu, hv, _⟩ =>
    match ra, h2 with
    | .prod [i, a, b], ⟨hi, ha, hb, _⟩ =>
    obtain ⟨x, rfl, hx⟩ := SPe.leaf_shape (.inl ⟨_, _, rfl⟩) hu
    obtain ⟨y, rfl, hy⟩ := SPe.leaf_shape (.inl ⟨_, _, rfl⟩) hv
    obtain ⟨a, rfl, _⟩ := SPe.leaf_shape (.inl ⟨_, _, rfl⟩) ha
    obtain ⟨b, rfl, _⟩ := SPe.leaf_shape (.inl ⟨_, _, rfl⟩) hb
    obtain ⟨o, s, rfl, _, _⟩ := inst_shape hi
    obtain ⟨_, n1, g1, _, g1', _⟩ := h.entries _ (by simp only [rule, List.mem_cons]; exact .inl rfl)
    obtain ⟨_, n2, g2, _, g2', _⟩ := h.entries _ (by simp only [rule, List.mem_cons]; exact .inr (.inl rfl))
    obtain ⟨_, n3, g3, _, _, g3'⟩ := h.entries _ (by simp only [rule, List.mem_cons]; exact .inr (.inr (.inl rfl)))
    obtain ⟨_, n4, g4, _, g4'⟩ := h.entries _ (by simp only [rule, List.mem_cons]; exact .inr (.inr (.inr (.inl rfl))))
    simp [pe, peIn, instT, opT, rawLeaves, rawLeavesAll] at g1 g2 g3 g4
    simp [wordIr, wordFields, rawLeaves, rawLeavesAll] at g1' g2'
    rw [BV.ofNat_val, Nat.mod_eq_of_lt (show op < 2 ^ 2 from ho)] at g3'
    refine ⟨x, y, hx, hy, rfl, ?_⟩
    obtain ⟨_, rfl⟩ := g1
    obtain ⟨_, rfl⟩ := g2
    obtain ⟨_, rfl⟩ := g3
    obtain ⟨_, rfl⟩ := g4
    subst g3' g4'
    cases swap <;> simp at g1' g2' <;> simp [g1'.2, g2'.2]
  · rintro ⟨x, y, hx, hy, rfl, rfl⟩
    have hs : sel.toNat < 2 := Bool.toNat_lt _
    refine ⟨⟨hx, hy, trivial⟩, ⟨inst_has ho hs, ?_, ?_, trivial⟩, ?_, ?_, ?_⟩
    · cases swap <;> assumption
    · cases swap <;> assumption
    · simp only [rule, pe, peIn, instT, opT, rawLeaves, rawLeavesAll, List.map_cons, List.map_nil, List.append_nil, List.cons_append, List.nil_append]
      decide
    · cases swap
      · exact (show List.Perm [[1], [2]] ([[1], [2]] : List RPath) from .refl _)
      · exact (show List.Perm [[2], [1]] ([[1], [2]] : List RPath) from .swap _ _ _)
    · intro e he
      simp only [rule, List.mem_cons, List.not_mem_nil, or_false] at he
      rcases he with rfl | rfl | rfl | rfl
      · refine ⟨.bv 0 w, if swap then y else x, by simp [pe, peIn, instT, opT, rawLeaves, rawLeavesAll], .bv 0 w, ?_, rfl⟩
        cases swap <;> simp [wordIr, wordFields, rawLeaves, rawLeavesAll]
      · refine ⟨.bv 0 w, if swap then x else y, by simp [pe, peIn, instT, opT, rawLeaves, rawLeavesAll], .bv 0 w, ?_, rfl⟩
        cases swap <;> simp [wordIr, wordFields, rawLeaves, rawLeavesAll]
      · refine ⟨opT, op, by simp [pe, peIn, instT, opT, rawLeaves, rawLeavesAll], by simp [opT], by rw [op_width]; rfl, ?_⟩
        rw [BV.ofNat_val, Nat.mod_eq_of_lt (show op < 2 ^ 2 from ho)]
      · exact ⟨.bit 0, sel.toNat, by simp [pe, peIn, instT, opT, rawLeaves, rawLeavesAll], ⟨0, rfl⟩, rfl⟩

theorem fits {w op : Nat} (ho : op < 4) (sel swap : Bool) {out : Nat} (hout : out < 2) (f : List (BitVec w) → BitVec w) (A : Ty → Except Err AsmObj) :
    RuleFits (wordIr w 2 f).inT (pe w A).inT (wordIr w 2 f).outT (pe w A).outT (rule op sel swap out) := by
  refine ⟨⟨_, _, (related_iff ho sel swap out f A _ _).mpr ⟨0, 0, Nat.two_pow_pos w, Nat.two_pow_pos w, rfl, rfl⟩⟩, ⟨[0], [out], by simp [rule]⟩, ?_⟩
  intro q p h
  simp only [rule, List.mem_cons, List.not_mem_nil, or_false, Prod.mk.injEq, Option.some.injEq] at h
  obtain ⟨rfl, rfl⟩ := h
  refine ⟨.bv 0 w, .bv 0 w, by simp [wordIr, leafTypes, leafTypesF], ?_, rfl⟩
  have : out = 0 ∨ out = 1 := by omega
  rcases this with rfl | rfl <;> simp [pe, peOut, leafTypes, leafTypesF]

theorem agree_iff {w op : Nat} (sel swap : Bool) {out : Nat} (hout : out < 2) (f : List (BitVec w) → BitVec w) (A : Ty → Except Err AsmObj) (x y : Nat)
    (bi : List (Nat × List BV)) (ba : List (Nat × List BV)) :
    OutputsAgree (wordIr w 2 f).outT (pe w A).outT (rule op sel swap out).ob (WIr.wordFn w f (.prod [.leaf x, .leaf y]) bi).1
        (peFn w (.prod [.prod [.leaf op, .leaf sel.toNat], .leaf (if swap then y else x), .leaf (if swap then x else y)]) ba).1 ↔
      f [.ofNat w x, .ofNat w y] = result (op == 1) sel (.ofNat w (if swap then y else x)) (.ofNat w (if swap then x else y)) := by
  have hsel : sel.toNat.testBit 0 = sel := by cases sel <;> rfl
  have : out = 0 ∨ out = 1 := by omega
  simp only [OutputsAgree, rule, List.mem_singleton, Prod.mk.injEq, Option.some.injEq]
  constructor
  · intro h
    obtain ⟨t, u, n, h1, h2⟩ := h [0] [out] ⟨rfl, rfl⟩
    simp [wordIr, WIr.wordFn, WIr.leafWord, rawLeaves, rawLeavesAll] at h1
    apply BitVec.eq_of_toNat_eq
    rw [← h1.2]
    rcases this with rfl | rfl <;> (simp [pe, peOut, peFn, hsel, rawLeaves, rawLeavesAll] at h2; exact h2.2)
  · rintro h q p ⟨rfl, rfl⟩
    refine ⟨.bv 0 w, .bv 0 w, (f [.ofNat w x, .ofNat w y]).toNat, by simp [wordIr, WIr.wordFn, WIr.leafWord, rawLeaves, rawLeavesAll], ?_⟩
    rw [h]
    rcases this with rfl | rfl <;> simp [pe, peOut, peFn, hsel, rawLeaves, rawLeavesAll]

/-- C93: a hand-made rule that gives the two words of the IR instruction to the operands, in either order, with the code `op` of an operation, `sel` and one of the outputs: with a sound and complete
solver `verify` returns `None` exactly when the function of the IR instruction is the one the PE computes with this instruction, and otherwise two words for which they differ. -/
theorem C93_verify (P : Process) {w : Nat} (hw : 0 < w) (f : List (BitVec w) → BitVec w) (op : Nat) (ho : op < 4) (sel swap : Bool) (out : Nat) (hout : out < 2)
    (solve : (VAsg Nat → Bool) → Option (VAsg Nat)) (hsat : ∀ φ a, solve φ = some a → φ a = true) (hunsat : ∀ φ, solve φ = none → ∀ a, φ a = false) (a0 : VAsg Nat) :
    let g := fun x y : BitVec w => if swap then result (op == 1) sel y x else result (op == 1) sel x y
    ∃ res, verify P.asm solve (wordIr w 2 f) (pe w P.asm) (rule op sel swap out) a0 = .ok res ∧ (res = none ↔ ∀ x y, f [x, y] = g x y) ∧
      ∀ a, res = some a → f [.ofNat w (a.ir [1]), .ofNat w (a.ir [2])] ≠ g (.ofNat w (a.ir [1])) (.ofNat w (a.ir [2])) := by
  intro g
  have hg : ∀ x y : Nat, result (op == 1) sel (BitVec.ofNat w (if swap then y else x)) (.ofNat w (if swap then x else y)) = g (.ofNat w x) (.ofNat w y) := by
    intro x y
    simp only [g]
    cases swap <;> rfl
  obtain ⟨res, h1, h2, h3⟩ := C36_verify_partial P _ _ _ _ _ (setup P hw (n := 2) (by decide) f) (rule op sel swap out) (fits ho sel swap hout f P.asm) solve hsat hunsat a0
  refine ⟨res, h1, h2.trans ?_, ?_⟩
  · constructor
    · intro h x y
      have := h _ _ ((related_iff ho sel swap out f P.asm _ _).mpr ⟨x.toNat, y.toNat, x.isLt, y.isLt, rfl, rfl⟩) (fun _ _ => []) (fun _ _ => 0) (fun _ _ => 0)
        (by intro b k i o hb; simp [wordIr] at hb) (by intro b k i o hb; simp [pe] at hb)
      rw [agree_iff sel swap hout, hg] at this
      simpa using this
    · intro h ri ra hR F ρi ρa _ _
      obtain ⟨x, y, _, _, rfl, rfl⟩ := (related_iff ho sel swap out f P.asm _ _).mp hR
      rw [agree_iff sel swap hout, hg]
      exact h _ _
  · intro a ha
    obtain ⟨ri, ra, hR, hi, _, F, _, _, hn⟩ := h3 a ha
    obtain ⟨x, y, hx, hy, rfl, rfl⟩ := (related_iff ho sel swap out f P.asm _ _).mp hR
    rw [agree_iff sel swap hout, hg] at hn
    have ex := hi [1] (.bv 0 w) x (by simp [wordIr, wordFields, rawLeaves, rawLeavesAll])
    have ey := hi [2] (.bv 0 w) y (by simp [wordIr, wordFields, rawLeaves, rawLeavesAll])
    rw [ex, ey] at hn
    simpa [width, CPe.ofNat_mod] using hn

/-- The rules of the test: the first is right for the sum, the second is not. -/
example : (∀ x y : BitVec 16, x + y = result (1 == 1) true x y) ∧ ¬ ∀ x y : BitVec 16, x + y = result (2 == 1) false x y :=
  ⟨fun _ _ => rfl, fun h => absurd (h 0 0) (by decide)⟩

/-! ## mapping -/

theorem shape (P : Process) (w : Nat) (enc : IEnc) (n : Nat) (f : List (BitVec w) → BitVec w) :
    InstProblem (problem w P.asm enc n f) 0 instT (wordFields w 1 n) (.cons 0 (.bv 0 w) .nil) (.cons 1 (.bv 0 w) (.cons 2 (.bv 0 w) .nil)) (peOut w) := by
  refine ⟨⟨8, rfl⟩, ⟨9, rfl⟩, ⟨97, rfl⟩, ⟨98, rfl⟩, WIr.fields_flat w 1 n, ?_, ?_, ?_, rfl, rfl, rfl, rfl, rfl⟩
  · intro k t h
    simp only [Fields.toList, List.mem_singleton, Prod.mk.injEq] at h
    rw [h.2]
    trivial
  · intro k t h
    simp only [Fields.toList, List.mem_cons, Prod.mk.injEq, List.not_mem_nil, or_false] at h
    rcases h with ⟨_, rfl⟩ | ⟨_, rfl⟩ <;> trivial
  · intro k t h
    simp only [peOut, Fields.toList, List.mem_cons, Prod.mk.injEq, List.not_mem_nil, or_false] at h
    rcases h with ⟨_, rfl⟩ | ⟨_, rfl⟩ <;> trivial

theorem op_mild : Mild opT := ⟨1, by decide +kernel, by decide⟩
theorem inst_mild : Mild instT := ⟨op_mild, trivial, trivial⟩

theorem known {P : Process} (hP : MildProcess P) : Known P instT := by
  intro t' ht
  rcases List.mem_cons.mp ht with rfl | ht
  · exact ⟨inst_wf, inst_mild⟩
  · exact hP _ _ ht

theorem known_leaves {P : Process} (hP : MildProcess P) : ∀ p c ms, (p, Ty.enum c ms) ∈ leafTypes instT [] → Known P (.enum c ms) := by
  intro p c ms h t' ht
  rcases List.mem_cons.mp ht with rfl | ht
  · have hm : Ty.enum c ms = opT := by
      simp [instT, leafTypes, leafTypesF, opT] at h ⊢
      exact h.2
    rw [hm]
    exact ⟨op_wf, op_mild⟩
  · exact hP _ _ ht

theorem accepts_op {n : Nat} (hn : n < 4) : Accepts opT n ↔ n = 1 ∨ n = 2 := by
  have hw := op_width
  have e : (enumCodes [.lit 1, .lit 2]) = [1, 2] := by decide +kernel
  have hns : ¬ SeveralRanges (enumCodes [.lit 1, .lit 2]).dedup := by
    intro h
    rw [e] at h
    exact h.2.1 (by decide +kernel)
  simp only [opT, Accepts]
  rw [← opT, hw, e, Nat.mod_eq_of_lt hn, e.symm]
  simp only [hns, false_or]
  rw [e]
  simp

theorem accepts_inst {n s : Nat} (hn : n < 4) (hs : s < 2) : Accepts instT (rawCode instT (.prod [.leaf n, .leaf s])) ↔ n = 1 ∨ n = 2 := by
  rw [Acc.accepts_leaves _ _ inst_wf (inst_has hn hs)]
  have hl : rawLeaves instT (.prod [.leaf n, .leaf s]) = [([0], opT, n), ([1], .bit 0, s)] := by simp [instT, rawLeaves, rawLeavesAll, opT]
  have hb : Accepts (.bit 0) s := trivial
  simp [hl, accepts_op hn, hb]

/-- C93: `RewriteRule(input_binding, output_binding, …)` with these entries makes that rule if the code is that of `add` or `sub`, and raises `ValueError` for the other codes. -/
theorem C93_rule (P : Process) (hP : MildProcess P) (w op : Nat) (ho : op < 4) (sel swap : Bool) (out : Key) :
    mkRule P.asm (fun p => (leafTypes (pe w P.asm).inT []).lookup p)
      [(.path [if swap then 2 else 1], [1]), (.path [if swap then 1 else 2], [2]), (.bits (BV.ofNat 2 op), [0, 0]), (.bit sel, [0, 1])] [(some [0], [out])] =
    if op = 1 ∨ op = 2 then .ok (rule op sel swap out) else .error .valueError := by
  have hl : (leafTypes (pe w P.asm).inT []).lookup [0, 0] = some opT ∧ (leafTypes (pe w P.asm).inT []).lookup [0, 1] = some (.bit 0) := by
    refine ⟨?_, ?_⟩ <;> simp [pe, peIn, instT, opT, leafTypes, leafTypesF, List.lookup]
  have hk : Known P opT := by
    intro t' ht
    rcases List.mem_cons.mp ht with rfl | ht
    · exact ⟨op_wf, op_mild⟩
    · exact hP _ _ ht
  have hv := hk.valid_iff op (by rw [op_width]; exact ho)
  rw [accepts_op ho] at hv
  obtain ⟨o, hO, _⟩ := P.good op_wf
  have hnew : AV.new P.asm opT (.asm (.bits (BV.ofNat 2 op))) = .ok (.adt opT (BV.ofNat 2 op)) := by
    rw [new_bits P op_wf (by simp [opT]) (by rw [op_width]; rfl)]
    rw [BV.ofNat_val, Nat.mod_eq_of_lt (show op < 2 ^ 2 from ho)]
    rw [show mkAV opT op = .adt opT (BV.ofNat (width opT) op) from rfl, op_width]
  have hval : isValidAV P.asm (mkAV opT op) = .ok (o.isValid (BV.ofNat 2 op)) := by
    rw [show mkAV opT op = .adt opT (BV.ofNat (width opT) op) from rfl, op_width]
    simp only [isValidAV, hO]
  have hwrap : rrWrap P.asm opT (.bits (BV.ofNat 2 op)) = .ok (.adt opT (BV.ofNat 2 op)) := by
    rw [← hnew]
    rfl
  rw [hval] at hv
  simp only [mkRule, rrEntries, rrEntry, hl.1, hl.2, rrConst, hwrap, hO]
  by_cases hc : op = 1 ∨ op = 2
  · have : o.isValid (BV.ofNat 2 op) = true := by simpa using hv.mpr hc
    simp only [this, if_true, if_pos hc]
    rfl
  · have : o.isValid (BV.ofNat 2 op) = false := by
      have := mt hv.mp hc
      simpa using this
    simp [this, if_neg hc]

theorem fn_out {w op s : Nat} (src : Key → Option Key) (x z : Key → Nat) {k : Nat} (hk : k = 0 ∨ k = 1) :
    prodBits (peOut w) (peFn w (.prod (.prod [.leaf op, .leaf s] :: rowOf (.cons 1 (.bv 0 w) (.cons 2 (.bv 0 w) .nil)) (wired src x z))) []).1 k =
      (result (op == 1) (s.testBit 0) (BitVec.ofNat w (wired src x z 1)) (.ofNat w (wired src x z 2))).toNat := by
  rcases hk with rfl | rfl <;> simp [rowOf, peFn, prodBits, peOut, fieldBits, width, CPe.ofNat_mod]

theorem fn_ir (w n : Nat) (f : List (BitVec w) → BitVec w) (x : Key → Nat) :
    prodBits (.cons 0 (.bv 0 w) .nil) (WIr.wordFn w f (.prod (rowOf (wordFields w 1 n) x)) []).1 0 = (f ((rowOf (wordFields w 1 n) x).map (WIr.leafWord w))).toNat := by
  simp [WIr.wordFn, prodBits, fieldBits]

theorem not_inj {w : Nat} {x y : BitVec w} (h : ~~~ x = ~~~ y) : x = y := by simpa using congrArg (~~~ ·) h

theorem sub_right {w : Nat} {x y z : BitVec w} (h : x - y = x - z) : y = z := by
  rw [BitVec.sub_eq_add_neg, BitVec.sub_eq_add_neg, BitVec.add_right_inj] at h
  simpa using congrArg (- ·) h

theorem result_left {w : Nat} {add sel : Bool} {x y z : BitVec w} (h : result add sel x z = result add sel y z) : x = y := by
  cases add <;> cases sel <;> simp only [result] at h
  · simpa using not_inj h
  · simpa using h
  · simpa using not_inj h
  · simpa using h

theorem result_right {w : Nat} {add sel : Bool} {x y z : BitVec w} (h : result add sel z x = result add sel z y) : x = y := by
  cases add <;> cases sel <;> simp only [result] at h
  · exact sub_right (not_inj h)
  · exact sub_right h
  · simpa using not_inj h
  · simpa using h

/-- Which functions are computed. -/
theorem can_iff {w : Nat} (hw : 0 < w) {n : Nat} (f : List (BitVec w) → BitVec w) :
    CanComputeAccepted (WIr.wordFn w f) (peFn w) instT (wordFields w 1 n) (.cons 0 (.bv 0 w) .nil) (.cons 1 (.bv 0 w) (.cons 2 (.bv 0 w) .nil)) (peOut w) ↔ Fits w n f := by
  have h01 : (BitVec.ofNat w 0) ≠ BitVec.ofNat w 1 := by
    intro h
    have := congrArg BitVec.toNat h
    simp at this
    omega
  constructor
  · rintro ⟨inst, src, out, hi, hv, hS, hO, h⟩
    obtain ⟨op, s, rfl, ho, hs⟩ := inst_shape hi
    rw [accepts_inst ho hs] at hv
    obtain ⟨o, ho1, ho2, _⟩ := hO.once 0 (.bv 0 w) (by simp [Fields.toList])
    have ho3 : o = 0 ∨ o = 1 := by simpa [peOut, Fields.toList] using ho1
    have key : ∀ x z : Key → Nat, f ((rowOf (wordFields w 1 n) x).map (WIr.leafWord w)) =
        result (op == 1) (s.testBit 0) (BitVec.ofNat w (wired src x z 1)) (.ofNat w (wired src x z 2)) := by
      intro x z
      have := h x z o ho1 0 ho2
      rw [fn_out src x z ho3, fn_ir] at this
      exact (BitVec.eq_of_toNat_eq this).symm
    have words : ∀ xs : List (BitVec w), xs.length = n → f xs =
        result (op == 1) (s.testBit 0) (BitVec.ofNat w (wired src (ANPe.env xs) (fun _ => 0) 1)) (.ofNat w (wired src (ANPe.env xs) (fun _ => 0) 2)) := by
      intro xs hxs
      have := key (ANPe.env xs) (fun _ => 0)
      rwa [show (rowOf (wordFields w 1 n) (ANPe.env xs)).map (WIr.leafWord w) = xs from CPe.words_env hxs] at this
    have hat : ∀ q : Nat, 1 ≤ q → q ≤ n → (src 1 = some q ∨ src 2 = some q) := by
      intro q h1 h2
      obtain ⟨k, hk, hs, _⟩ := hS.once q (.bv 0 w) (WIr.fields_mem.mpr ⟨h1, by omega, rfl⟩)
      simp only [Fields.toList, List.map_cons, List.map_nil, List.mem_cons, List.not_mem_nil, or_false] at hk
      rcases hk with rfl | rfl
      · exact .inl hs
      · exact .inr hs
    have hrng : ∀ k q : Nat, k = 1 ∨ k = 2 → src k = some q → 1 ≤ q ∧ q ≤ n := by
      intro k q hk hq
      have hm := hS.typed k (.bv 0 w) q (hk.elim (fun e => by simp [e, Fields.toList]) (fun e => by simp [e, Fields.toList])) hq
      obtain ⟨a1, a2, _⟩ := WIr.fields_mem.mp hm
      have a1' : 1 ≤ q := a1
      have a2' : q < 1 + n := a2
      omega
    have hn2 : n ≤ 2 := by
      by_contra hgt
      exact ANPe.not_three (hat 1 (by omega) (by omega)) (hat 2 (by omega) (by omega)) (hat 3 (by omega) (by omega))
    have b1 : ∃ q, src 1 = some q := by
      cases hs : src 1 with
      | some q => exact ⟨q, rfl⟩
      | none =>
        have e := (key (fun _ => 0) (fun _ => 0)).symm.trans (key (fun _ => 0) (fun k => if k = 1 then 1 else 0))
        have e2 : wired src (fun _ => 0) (fun _ => 0) 2 = 0 := by simp only [wired]; split <;> rfl
        have e3 : wired src (fun _ => 0) (fun k => if k = 1 then 1 else 0) 2 = 0 := by simp only [wired]; split <;> rfl
        rw [e2, e3] at e
        have := result_left e
        simp only [wired, hs, if_true] at this
        exact absurd this h01
    have b2 : ∃ r, src 2 = some r := by
      cases hs : src 2 with
      | some r => exact ⟨r, rfl⟩
      | none =>
        have e := (key (fun _ => 0) (fun _ => 0)).symm.trans (key (fun _ => 0) (fun k => if k = 2 then 1 else 0))
        have e2 : wired src (fun _ => 0) (fun _ => 0) 1 = 0 := by simp only [wired]; split <;> rfl
        have e3 : wired src (fun _ => 0) (fun k => if k = 2 then 1 else 0) 1 = 0 := by simp only [wired]; split <;> rfl
        rw [e2, e3] at e
        have := result_right e
        simp only [wired, hs, if_true] at this
        exact absurd this h01
    obtain ⟨q, hq⟩ := b1
    obtain ⟨q1, q2⟩ := hrng 1 q (.inl rfl) hq
    obtain ⟨r, hr⟩ := b2
    obtain ⟨r1, r2⟩ := hrng 2 r (.inr rfl) hr
    have hne : q ≠ r := by
      rintro rfl
      obtain ⟨k, _, _, hu⟩ := hS.once q (.bv 0 w) (WIr.fields_mem.mpr ⟨q1, Nat.lt_of_le_of_lt q2 (by omega), rfl⟩)
      have u1 := hu 1 (by simp [Fields.toList]) hq
      have u2 := hu 2 (by simp [Fields.toList]) hr
      exact absurd (u1.trans u2.symm) (by decide)
    have nat_case : ∀ a b : Nat, 1 ≤ a → a ≤ n → 1 ≤ b → b ≤ n → a ≠ b → (a = 1 ∧ b = 2 ∨ a = 2 ∧ b = 1) ∧ n = 2 := by
      intro a b h1 h2 h3 h4 h5
      omega
    obtain ⟨hc, rfl⟩ := nat_case q r q1 q2 r1 r2 hne
    refine ⟨rfl, ?_⟩
    have e : ∀ x y, f [x, y] = result (op == 1) (s.testBit 0) (BitVec.ofNat w (ANPe.env [x, y] q)) (.ofNat w (ANPe.env [x, y] r)) := by
      intro x y
      rw [words [x, y] rfl]
      simp only [wired, hq, hr]
    rcases hc with ⟨e1, e2⟩ | ⟨e1, e2⟩
    · have e' : ∀ x y, f [x, y] = result (op == 1) (s.testBit 0) x y := by
        intro x y
        rw [e, e1, e2]
        simp [ANPe.env]
      cases h1 : (op == 1) <;> cases h2 : s.testBit 0 <;> rw [h1, h2] at e'
      · exact .inr (.inr (.inr (.inl e')))
      · exact .inr (.inr (.inl e'))
      · exact .inr (.inl e')
      · exact .inl e'
    · have e' : ∀ x y, f [x, y] = result (op == 1) (s.testBit 0) y x := by
        intro x y
        rw [e, e1, e2]
        simp [ANPe.env]
      cases h1 : (op == 1) <;> cases h2 : s.testBit 0 <;> rw [h1, h2] at e'
      · exact .inr (.inr (.inr (.inr (.inr e'))))
      · exact .inr (.inr (.inr (.inr (.inl e'))))
      · exact .inr (.inl fun x y => by rw [e', result, BitVec.add_comm])
      · exact .inl fun x y => by rw [e', result, BitVec.add_comm]
  · have build : ∀ (op : Nat) (sel swap : Bool), (op = 1 ∨ op = 2) → n = 2 →
        (∀ x y, f [x, y] = if swap then result (op == 1) sel y x else result (op == 1) sel x y) →
        CanComputeAccepted (WIr.wordFn w f) (peFn w) instT (wordFields w 1 n) (.cons 0 (.bv 0 w) .nil) (.cons 1 (.bv 0 w) (.cons 2 (.bv 0 w) .nil)) (peOut w) := by
      rintro op sel swap hop rfl h
      have h4 : op < 4 := by omega
      have hs : sel.toNat < 2 := Bool.toNat_lt _
      have hsel : sel.toNat.testBit 0 = sel := by cases sel <;> rfl
      refine ⟨.prod [.leaf op, .leaf sel.toNat], fun k => if k = 1 then some (if swap then 2 else 1) else some (if swap then 1 else 2), fun k => if k = 0 then some 0 else none, inst_has h4 hs,
        (accepts_inst h4 hs).mpr hop, ?_, ?_, ?_⟩
      · cases swap
        · exact ⟨by simp [wordFields, Fields.toList]; rintro a t i (⟨rfl, rfl⟩ | ⟨rfl, rfl⟩) hi <;> simp at hi <;> simp [← hi], by simp [wordFields, Fields.toList]; rintro i t (⟨rfl, _⟩ | ⟨rfl, _⟩) <;> decide⟩
        · exact ⟨by simp [wordFields, Fields.toList]; rintro a t i (⟨rfl, rfl⟩ | ⟨rfl, rfl⟩) hi <;> simp at hi <;> simp [← hi], by simp [wordFields, Fields.toList]; rintro i t (⟨rfl, _⟩ | ⟨rfl, _⟩) <;> decide⟩
      · exact ⟨by simp [peOut, Fields.toList]; rintro a t (⟨rfl, rfl⟩ | ⟨rfl, rfl⟩) <;> simp, by simp [peOut, Fields.toList]⟩
      intro x z k hk q hq
      have hk' : k = 0 ∨ k = 1 := by simpa [peOut, Fields.toList] using hk
      have hq' : q = 0 := by
        rcases hk' with rfl | rfl
        · simpa using hq.symm
        · simp at hq
      subst hq'
      rw [fn_out _ x z hk', fn_ir, hsel]
      simp only [wordFields, rowOf, WIr.leafWord, List.map_cons, List.map_nil, h, width, CPe.ofNat_mod, wired]
      cases swap <;> simp
    rintro ⟨rfl, h | h | h | h | h | h⟩
    · exact build 1 true false (.inl rfl) rfl h
    · exact build 1 false false (.inl rfl) rfl h
    · exact build 2 true false (.inr rfl) rfl h
    · exact build 2 false false (.inr rfl) rfl h
    · exact build 2 true true (.inr rfl) rfl h
    · exact build 2 false true (.inr rfl) rfl h

/-- C93: with either encoding of the index variables and any sound and complete solver, an IR instruction that returns a function of `n` words is mapped to the PE, by a correct rule, if and only if
the function is the sum or a difference of two words, or the complement of one of these. Otherwise the result is `None`. -/
theorem C93_mapped (P : Process) (hP : MildProcess P) (enc : IEnc) {w : Nat} (hw : 0 < w) (n : Nat) (hn : 0 < n) (f : List (BitVec w) → BitVec w)
    (solve : (MAsg Nat → Prop) → Option (MAsg Nat)) (hsat : ∀ φ a, solve φ = some a → φ a) (hcomp : ∀ φ a, φ a → ∃ a', solve φ = some a') (a0 : MAsg Nat) :
    (Fits w n f → ∃ r, mapSolve P.asm (problem w P.asm enc n f) solve a0 = .ok (some r) ∧ IsMapping P.asm (problem w P.asm enc n f) r ∧ RuleRight P (wordIr w n f) (pe w P.asm) r) ∧
    (¬ Fits w n f → mapSolve P.asm (problem w P.asm enc n f) solve a0 = .ok none) := by
  have key := C33_instruction_known P (problem w P.asm enc n f) (WIr.wordFn w f) (peFn w) (fun _ => [1]) 0 instT _ _ _ _ (shape P w enc n f) (setup P hw hn f) (pe_total P w)
    (known hP) (known_leaves hP) solve hsat hcomp a0
  rw [can_iff hw] at key
  exact right_of (setup P hw hn f) key

theorem boxes (P : Process) (w : Nat) : TotalBoxes (pe w P.asm) (fun _ => [1]) := by
  intro c fs _ d bb _
  have : ((pe w P.asm).run d bb).2 = [] := by
    show (match peCall w P.asm d with | .ok l => (l, []) | .error _ => ([], [])).2 = []
    cases peCall w P.asm d <;> rfl
  refine ⟨by simp only [this]; rfl, fun b k h => ?_⟩
  cases h

/-- C93: the same with `simple_formula=True`. -/
theorem C93_mapped_simple (P : Process) (hP : MildProcess P) (enc : IEnc) {w : Nat} (hw : 0 < w) (n : Nat) (hn : 0 < n) (f : List (BitVec w) → BitVec w)
    (solve : (SAsg Nat → Prop) → Option (SAsg Nat)) (hsat : ∀ φ a, solve φ = some a → φ a) (hcomp : ∀ φ a, φ a → ∃ a', solve φ = some a') (a0 : SAsg Nat) :
    (Fits w n f → ∃ r, simpleSolve P.asm (problem w P.asm enc n f) solve a0 = .ok (some r) ∧ IsMapping P.asm (problem w P.asm enc n f) r ∧ RuleRight P (wordIr w n f) (pe w P.asm) r) ∧
    (¬ Fits w n f → simpleSolve P.asm (problem w P.asm enc n f) solve a0 = .ok none) := by
  have key := C55_instruction_known_plain P (problem w P.asm enc n f) (WIr.wordFn w f) (peFn w) (fun _ => [1]) 0 instT _ _ _ _ (shape P w enc n f) (setup P hw hn f) (pe_total P w) (boxes P w)
    (known hP) (known_leaves hP) solve hsat hcomp a0
  rw [can_iff hw] at key
  exact right_of (setup P hw hn f) key

/-- The sum fits; the complement of one word and the sum of a word with itself do not. -/
example : Fits 16 2 (fun xs => xs[0]?.getD 0 + xs[1]?.getD 0) ∧ ¬ Fits 16 1 (fun xs => ~~~ (xs[0]?.getD 0)) ∧ ¬ Fits 16 2 (fun xs => xs[0]?.getD 0 + xs[0]?.getD 0) := by
  refine ⟨⟨rfl, .inl fun _ _ => rfl⟩, fun h => absurd h.1 (by decide), ?_⟩
  rintro ⟨_, h | h | h | h | h | h⟩
  · exact absurd (h 0 1) (by decide)
  · exact absurd (h 0 0) (by decide)
  · exact absurd (h 0 1) (by decide)
  · exact absurd (h 0 0) (by decide)
  · exact absurd (h 0 1) (by decide)
  · exact absurd (h 0 0) (by decide)

end Peak.CuPe
