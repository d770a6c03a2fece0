import Verif.Spec.AddNotPe
import Verif.Props.BasicPe
/-!
# C90: mapping to the PE of `test_simple`
-/

namespace Peak.ANPe
open Peak Peak.Spec

theorem op_width : width opT = 2 := by decide +kernel
theorem op_wf : WF opT := by simp [opT, WF, autos]
theorem inst_wf : WF instT := ⟨by simp [Fields.toList], op_wf, trivial⟩
theorem inst_width : width instT = 2 := by decide +kernel

theorem add_code (P : Process) {n : Nat} (hn : n < 4) : RPe.isMem P.asm (.lit 1) (mkAV opT n) = .ok (n == 1) := by
  have h := RG.isMem_code P (m := .lit 1) op_wf (by simp) (n := n) (by show n < 2 ^ width opT; rw [op_width]; exact hn)
  rw [← opT] at h
  rw [h]
  rfl

theorem inst_shape {v : RVal} (h : RHas instT v) : ∃ n, v = .prod [.leaf n] ∧ n < 4 := by
  match v, h with
  | .prod [v0], ⟨h0, _⟩ =>
    obtain ⟨n, rfl, hn⟩ := SPe.leaf_shape (.inr (.inr ⟨_, _, rfl⟩)) h0
    rw [← opT, op_width] at hn
    exact ⟨n, rfl, hn⟩

theorem inst_has {n : Nat} (h : n < 4) : RHas instT (.prod [.leaf n]) := by
  refine ⟨?_, trivial⟩
  have := op_width
  unfold opT at this ⊢
  simp only [RHas, this]
  exact h

theorem pe_computes (P : Process) (w : Nat) : Computes P (pe w P.asm) (peFn w) := by
  refine ⟨93, peIn w, 94, peOut w, rfl, rfl, ?_⟩
  intro vs bb h
  match vs, h with
  | [v0, v1, v2], ⟨h0, h1, h2, _⟩ =>
  obtain ⟨op, rfl, ho⟩ := inst_shape h0
  obtain ⟨a, rfl, ha⟩ := SPe.leaf_shape (.inl ⟨_, _, rfl⟩) h1
  obtain ⟨b, rfl, hb⟩ := SPe.leaf_shape (.inl ⟨_, _, rfl⟩) h2
  refine ⟨_, rfl, ⟨BitVec.isLt _, trivial⟩, ?_⟩
  have hrun : (pe w P.asm).run (inputDict (peIn w) [.prod [.leaf op], .leaf a, .leaf b]) bb =
      ([.bits (BV.ofNat w (if op == 1 then BitVec.ofNat w a + .ofNat w b else ~~~ BitVec.ofNat w a).toNat)], []) := by
    have g : (mkAV instT (rawCode instT (.prod [.leaf op]))).get P.asm 0 = .ok (mkAV opT op) :=
      RG.get_raw P (k := 0) (t := opT) (v := .leaf op) inst_wf h0 (by simp [Fields.toList])
    simp only [pe, peIn, inputDict, peCall, g, bind, Except.bind, add_code P ho]
    simp only [mkAV, CPe.wordOf_bits, rawCode]
  rw [hrun]
  exact ⟨⟨WIr.new_word P w _, trivial⟩, rfl⟩

theorem pe_total (P : Process) (w : Nat) : Spec.Total P (pe w P.asm) := by
  refine ⟨93, peIn w, 94, peOut w, rfl, rfl, ?_⟩
  intro d bb h
  match d, h with
  | [(k0, x0), (k1, x1), (k2, x2)], ⟨_, ⟨n0, h0, e0⟩, _, ⟨n1, h1, e1⟩, _, ⟨n2, h2, e2⟩, _⟩ =>
    subst e0 e1 e2
    obtain ⟨m, hm, g⟩ := RG.get_any P (k := 0) (t := opT) inst_wf h0 (by simp [Fields.toList])
    rw [← instT] at g
    rw [op_width] at hm
    refine ⟨[.leaf (if m == 1 then BitVec.ofNat w n1 + .ofNat w n2 else ~~~ BitVec.ofNat w n1).toNat], ⟨BitVec.isLt _, trivial⟩, ?_⟩
    simp only [pe, peCall, g, bind, Except.bind, add_code P hm]
    simp only [mkAV, CPe.wordOf_bits]
    exact ⟨WIr.new_word P w _, trivial⟩

theorem setup (P : Process) {w : Nat} (hw : 0 < w) {n : Nat} (hn : 0 < n) (f : List (BitVec w) → BitVec w) :
    Setup P (wordIr w n f) (pe w P.asm) (WIr.wordFn w f) (peFn w) (fun _ => [1]) := by
  refine WIr.setup w n f hw hn (pe_computes P w) ?_ ?_ rfl ?_ rfl
  · refine ⟨⟨by simp [peIn, Fields.toList], inst_wf, trivial, trivial, trivial⟩, by simp [peIn, Fields.toList], .inl ?_, ?_, trivial, trivial, trivial⟩
    · intro kt hkt
      simp only [peIn, Fields.toList, List.mem_cons, List.not_mem_nil, or_false] at hkt
      rcases hkt with rfl | rfl | rfl
      · simp only [inst_width]; decide
      all_goals simpa [width] using hw
    · exact ⟨by simp [Fields.toList], .inr rfl, trivial, trivial⟩
  · exact ⟨⟨by simp [peOut, Fields.toList], trivial, trivial⟩, ⟨by simp [peOut, Fields.toList], .inr rfl, trivial, trivial⟩, trivial, trivial⟩
  · intro r bb h
    simp only [peFn]
    split <;> rfl

theorem shape (P : Process) (w : Nat) (enc : IEnc) (n : Nat) (f : List (BitVec w) → BitVec w) :
    InstProblem (problem w P.asm enc n f) 0 instT (wordFields w 1 n) (peOut w) (.cons 1 (.bv 0 w) (.cons 2 (.bv 0 w) .nil)) (peOut w) := by
  refine ⟨⟨8, rfl⟩, ⟨9, rfl⟩, ⟨93, rfl⟩, ⟨94, rfl⟩, WIr.fields_flat w 1 n, ?_, ?_, ?_, rfl, rfl, rfl, rfl, rfl⟩
  · intro k t h
    simp only [peOut, Fields.toList, List.mem_singleton, Prod.mk.injEq] at h
    rw [h.2]
    trivial
  · intro k t h
    simp only [Fields.toList, List.mem_cons, Prod.mk.injEq, List.not_mem_nil, or_false] at h
    rcases h with ⟨_, rfl⟩ | ⟨_, rfl⟩ <;> trivial
  · intro k t h
    simp only [peOut, Fields.toList, List.mem_singleton, Prod.mk.injEq] at h
    rw [h.2]
    trivial

theorem op_mild : Mild opT := ⟨1, by decide +kernel, by decide⟩
theorem inst_mild : Mild instT := ⟨op_mild, trivial⟩

theorem known {P : Process} (hP : MildProcess P) : Known P instT := by
  intro t' ht
  rcases List.mem_cons.mp ht with rfl | ht
  · exact ⟨inst_wf, inst_mild⟩
  · exact hP _ _ ht

theorem known_leaves {P : Process} (hP : MildProcess P) : ∀ p c ms, (p, Ty.enum c ms) ∈ leafTypes instT [] → Known P (.enum c ms) := by
  intro p c ms h t' ht
  rcases List.mem_cons.mp ht with rfl | ht
  · have hm : Ty.enum c ms = opT := by
      simp [instT, leafTypes, leafTypesF, opT] at h ⊢
      exact h.2
    rw [hm]
    exact ⟨op_wf, op_mild⟩
  · exact hP _ _ ht

theorem accepts_inst (n : Nat) (hn : n < 4) : Accepts instT (rawCode instT (.prod [.leaf n])) ↔ n = 1 ∨ n = 2 := by
  rw [Acc.accepts_leaves _ _ inst_wf (inst_has hn)]
  have hw := op_width
  have e : (enumCodes [.lit 1, .lit 2]) = [1, 2] := by decide +kernel
  have hns : ¬ SeveralRanges (enumCodes [.lit 1, .lit 2]).dedup := by
    intro h
    rw [e] at h
    exact h.2.1 (by decide +kernel)
  have hl : rawLeaves instT (.prod [.leaf n]) = [([0], opT, n)] := by simp [instT, rawLeaves, rawLeavesAll, opT]
  rw [hl]
  simp only [List.mem_singleton, forall_eq]
  have : Accepts opT n ↔ n = 1 ∨ n = 2 := by
    simp only [opT, Accepts]
    rw [← opT, hw, e, Nat.mod_eq_of_lt hn, e.symm]
    simp only [hns, false_or]
    rw [e]
    simp
  exact this

/-- The words given as a list. -/
def env {w : Nat} (xs : List (BitVec w)) : Key → Nat := fun k => (xs[k - 1]?.getD 0).toNat

theorem fn_out (w op : Nat) (src : Key → Option Key) (x z : Key → Nat) :
    prodBits (peOut w) (peFn w (.prod (.prod [.leaf op] :: rowOf (.cons 1 (.bv 0 w) (.cons 2 (.bv 0 w) .nil)) (wired src x z))) []).1 0 =
      (if op == 1 then BitVec.ofNat w (wired src x z 1) + .ofNat w (wired src x z 2) else ~~~ BitVec.ofNat w (wired src x z 1)).toNat := by
  simp [rowOf, peFn, prodBits, peOut, fieldBits, width, CPe.ofNat_mod]

theorem fn_ir (w n : Nat) (f : List (BitVec w) → BitVec w) (x : Key → Nat) :
    prodBits (peOut w) (WIr.wordFn w f (.prod (rowOf (wordFields w 1 n) x)) []).1 0 = (f ((rowOf (wordFields w 1 n) x).map (WIr.leafWord w))).toNat := by
  simp [WIr.wordFn, prodBits, fieldBits, peOut]

theorem not_three {s1 s2 : Option Nat} (h1 : s1 = some 1 ∨ s2 = some 1) (h2 : s1 = some 2 ∨ s2 = some 2) (h3 : s1 = some 3 ∨ s2 = some 3) : False := by
  rcases h1 with rfl | rfl <;> rcases h2 with h2 | h2 <;> rcases h3 with h3 | h3 <;> simp_all

/-- Which functions are computed. -/
theorem can_iff {w : Nat} (hw : 0 < w) {n : Nat} (hn : 0 < n) (f : List (BitVec w) → BitVec w) :
    CanComputeAccepted (WIr.wordFn w f) (peFn w) instT (wordFields w 1 n) (peOut w) (.cons 1 (.bv 0 w) (.cons 2 (.bv 0 w) .nil)) (peOut w) ↔ Fits w n f := by
  have h01 : (0 : BitVec w) ≠ 1 := by
    intro h
    have := congrArg BitVec.toNat h
    simp at this
    omega
  constructor
  · rintro ⟨inst, src, out, hi, hv, hS, hO, h⟩
    obtain ⟨op, rfl, ho⟩ := inst_shape hi
    rw [accepts_inst op ho] at hv
    obtain ⟨o, ho1, ho2, _⟩ := hO.once 0 (.bv 0 w) (by simp [peOut, Fields.toList])
    simp only [peOut, Fields.toList, List.map_cons, List.map_nil, List.mem_singleton] at ho1
    subst ho1
    have key : ∀ x z : Key → Nat, f ((rowOf (wordFields w 1 n) x).map (WIr.leafWord w)) =
        if op == 1 then BitVec.ofNat w (wired src x z 1) + .ofNat w (wired src x z 2) else ~~~ BitVec.ofNat w (wired src x z 1) := by
      intro x z
      have := h x z 0 (by simp [peOut, Fields.toList]) 0 ho2
      rw [fn_out w, fn_ir] at this
      exact (BitVec.eq_of_toNat_eq this).symm
    have words : ∀ xs : List (BitVec w), xs.length = n → f xs =
        if op == 1 then BitVec.ofNat w (wired src (env xs) (fun _ => 0) 1) + .ofNat w (wired src (env xs) (fun _ => 0) 2) else ~~~ BitVec.ofNat w (wired src (env xs) (fun _ => 0) 1) := by
      intro xs hxs
      have := key (env xs) (fun _ => 0)
      rwa [show (rowOf (wordFields w 1 n) (env xs)).map (WIr.leafWord w) = xs from CPe.words_env hxs] at this
    have hat : ∀ q : Nat, 1 ≤ q → q ≤ n → (src 1 = some q ∨ src 2 = some q) := by
      intro q h1 h2
      obtain ⟨k, hk, hs, _⟩ := hS.once q (.bv 0 w) (WIr.fields_mem.mpr ⟨h1, by omega, rfl⟩)
      simp only [Fields.toList, List.map_cons, List.map_nil, List.mem_cons, List.not_mem_nil, or_false] at hk
      rcases hk with rfl | rfl
      · exact .inl hs
      · exact .inr hs
    have hrng : ∀ k q : Nat, k = 1 ∨ k = 2 → src k = some q → 1 ≤ q ∧ q ≤ n := by
      intro k q hk hq
      have hm := hS.typed k (.bv 0 w) q (hk.elim (fun e => by simp [e, Fields.toList]) (fun e => by simp [e, Fields.toList])) hq
      obtain ⟨a1, a2, _⟩ := WIr.fields_mem.mp hm
      have a1' : 1 ≤ q := a1
      have a2' : q < 1 + n := a2
      omega
    have hn2 : n ≤ 2 := by
      by_contra hgt
      exact not_three (hat 1 (by omega) (by omega)) (hat 2 (by omega) (by omega)) (hat 3 (by omega) (by omega))
    -- the first operand is given a word
    have b1 : ∃ q, src 1 = some q := by
      cases hs : src 1 with
      | some q => exact ⟨q, rfl⟩
      | none =>
        have e := (key (fun _ => 0) (fun _ => 0)).symm.trans (key (fun _ => 0) (fun k => if k = 1 then 1 else 0))
        exfalso
        rcases hv with rfl | rfl
        · have e2 : wired src (fun _ => 0) (fun _ => 0) 2 = 0 := by simp only [wired]; split <;> rfl
          have e3 : wired src (fun _ => 0) (fun k => if k = 1 then 1 else 0) 2 = 0 := by simp only [wired]; split <;> rfl
          simp only [beq_self_eq_true, if_true, e2, e3] at e
          simp only [wired, hs, if_true] at e
          exact h01 ((BitVec.add_left_inj _).mp e)
        · simp only [wired, hs] at e
          simp only [show ((2 : Nat) == 1) = false from rfl, Bool.false_eq_true, if_false, if_true] at e
          exact h01 (by simpa using congrArg (~~~ ·) e)
    obtain ⟨q, hq⟩ := b1
    obtain ⟨q1, q2⟩ := hrng 1 q (.inl rfl) hq
    rcases hv with rfl | rfl
    · -- both
      right
      have b2 : ∃ r, src 2 = some r := by
        cases hs : src 2 with
        | some r => exact ⟨r, rfl⟩
        | none =>
          have e := (key (fun _ => 0) (fun _ => 0)).symm.trans (key (fun _ => 0) (fun _ => 1))
          simp only [wired, hs, hq, beq_self_eq_true, if_true] at e
          exact absurd ((BitVec.add_right_inj _).mp e) h01
      obtain ⟨r, hr⟩ := b2
      obtain ⟨r1, r2⟩ := hrng 2 r (.inr rfl) hr
      have hne : q ≠ r := by
        rintro rfl
        obtain ⟨k, _, _, hu⟩ := hS.once q (.bv 0 w) (WIr.fields_mem.mpr ⟨q1, Nat.lt_of_le_of_lt q2 (by omega), rfl⟩)
        have u1 := hu 1 (by simp [Fields.toList]) hq
        have u2 := hu 2 (by simp [Fields.toList]) hr
        exact absurd (u1.trans u2.symm) (by decide)
      have nat_case : ∀ a b : Nat, 1 ≤ a → a ≤ n → 1 ≤ b → b ≤ n → a ≠ b → (a = 1 ∧ b = 2 ∨ a = 2 ∧ b = 1) ∧ n = 2 := by
        intro a b h1 h2 h3 h4 h5
        omega
      obtain ⟨hc, rfl⟩ := nat_case q r q1 q2 r1 r2 hne
      refine ⟨rfl, .inl fun x y => ?_⟩
      rw [words [x, y] rfl]
      simp only [wired, hq, hr, beq_self_eq_true, if_true]
      rcases hc with ⟨e1, e2⟩ | ⟨e1, e2⟩ <;> rw [e1, e2]
      · simp [env]
      · simp [env, BitVec.add_comm]
    · have e : ∀ xs : List (BitVec w), xs.length = n → f xs = ~~~ BitVec.ofNat w (env xs q) := by
        intro xs hxs
        rw [words xs hxs]
        simp only [show ((2 : Nat) == 1) = false from rfl, Bool.false_eq_true, if_false, wired, hq]
      have nat_case : ∀ a : Nat, 1 ≤ a → a ≤ n → a = 1 ∧ n = 1 ∨ n = 2 ∧ (a = 1 ∨ a = 2) := by
        intro a h1 h2
        omega
      rcases nat_case q q1 q2 with ⟨hq1, rfl⟩ | ⟨rfl, hc⟩
      · left
        refine ⟨rfl, fun x => ?_⟩
        rw [e [x] rfl, hq1]
        simp [env]
      · right
        refine ⟨rfl, .inr ?_⟩
        rcases hc with hq1 | hq1
        · left
          intro x y
          rw [e [x, y] rfl, hq1]
          simp [env]
        · right
          intro x y
          rw [e [x, y] rfl, hq1]
          simp [env]
  · -- the instruction, the words at the operands, and the words
    have build : ∀ (op : Nat) (src : Key → Option Key), (op = 1 ∨ op = 2) →
        IsAssignment (Fields.cons 1 (.bv 0 w) (.cons 2 (.bv 0 w) .nil)).toList (wordFields w 1 n).toList src →
        (∀ x z : Key → Nat, f ((rowOf (wordFields w 1 n) x).map (WIr.leafWord w)) =
          if op == 1 then BitVec.ofNat w (wired src x z 1) + .ofNat w (wired src x z 2) else ~~~ BitVec.ofNat w (wired src x z 1)) →
        CanComputeAccepted (WIr.wordFn w f) (peFn w) instT (wordFields w 1 n) (peOut w) (.cons 1 (.bv 0 w) (.cons 2 (.bv 0 w) .nil)) (peOut w) := by
      intro op src hop hS h
      have h4 : op < 4 := by omega
      refine ⟨.prod [.leaf op], src, fun _ => some 0, inst_has h4, (accepts_inst op h4).mpr hop, hS, ⟨by simp [peOut, Fields.toList], by simp [peOut, Fields.toList]⟩, ?_⟩
      intro x z k hk q hq
      simp only [peOut, Fields.toList, List.map_cons, List.map_nil, List.mem_singleton] at hk
      cases hq
      subst hk
      rw [fn_out w, fn_ir, h x z]
    rintro (⟨rfl, h⟩ | ⟨rfl, h | h | h⟩)
    · refine build 2 (fun k => if k = 1 then some 1 else none) (.inr rfl) ⟨by simp [wordFields, Fields.toList]; rintro a t (⟨_, rfl⟩ | ⟨_, rfl⟩) _ <;> rfl, by simp [wordFields, Fields.toList]⟩ (fun x z => ?_)
      simp [wordFields, rowOf, WIr.leafWord, width, CPe.ofNat_mod, h, wired]
    · refine build 1 (fun k => if k = 1 then some 1 else some 2) (.inl rfl) ⟨by simp [wordFields, Fields.toList]; rintro a t i (⟨rfl, rfl⟩ | ⟨rfl, rfl⟩) hi <;> simp at hi <;> simp [← hi], by simp [wordFields, Fields.toList]; rintro i t (⟨rfl, _⟩ | ⟨rfl, _⟩) <;> decide⟩ (fun x z => ?_)
      simp [wordFields, rowOf, WIr.leafWord, width, CPe.ofNat_mod, h, wired]
    · refine build 2 (fun k => if k = 1 then some 1 else some 2) (.inr rfl) ⟨by simp [wordFields, Fields.toList]; rintro a t i (⟨rfl, rfl⟩ | ⟨rfl, rfl⟩) hi <;> simp at hi <;> simp [← hi], by simp [wordFields, Fields.toList]; rintro i t (⟨rfl, _⟩ | ⟨rfl, _⟩) <;> decide⟩ (fun x z => ?_)
      simp [wordFields, rowOf, WIr.leafWord, width, CPe.ofNat_mod, h, wired]
    · refine build 2 (fun k => if k = 1 then some 2 else some 1) (.inr rfl) ⟨by simp [wordFields, Fields.toList]; rintro a t i (⟨rfl, rfl⟩ | ⟨rfl, rfl⟩) hi <;> simp at hi <;> simp [← hi], by simp [wordFields, Fields.toList]; rintro i t (⟨rfl, _⟩ | ⟨rfl, _⟩) <;> decide⟩ (fun x z => ?_)
      simp [wordFields, rowOf, WIr.leafWord, width, CPe.ofNat_mod, h, wired]

/-- C90: with either encoding of the index variables and any sound and complete solver, an IR instruction that returns a function of `n` words is mapped to the PE, by a correct rule, if and only if
the function is the sum of two words or the complement of one of at most two. Otherwise the result is `None`. -/
theorem C90_mapped (P : Process) (hP : MildProcess P) (enc : IEnc) {w : Nat} (hw : 0 < w) (n : Nat) (hn : 0 < n) (f : List (BitVec w) → BitVec w)
    (solve : (MAsg Nat → Prop) → Option (MAsg Nat)) (hsat : ∀ φ a, solve φ = some a → φ a) (hcomp : ∀ φ a, φ a → ∃ a', solve φ = some a') (a0 : MAsg Nat) :
    (Fits w n f → ∃ r, mapSolve P.asm (problem w P.asm enc n f) solve a0 = .ok (some r) ∧ IsMapping P.asm (problem w P.asm enc n f) r ∧ RuleRight P (wordIr w n f) (pe w P.asm) r) ∧
    (¬ Fits w n f → mapSolve P.asm (problem w P.asm enc n f) solve a0 = .ok none) := by
  have key := C33_instruction_known P (problem w P.asm enc n f) (WIr.wordFn w f) (peFn w) (fun _ => [1]) 0 instT _ _ _ _ (shape P w enc n f) (setup P hw hn f) (pe_total P w)
    (known hP) (known_leaves hP) solve hsat hcomp a0
  rw [can_iff hw hn] at key
  exact right_of (setup P hw hn f) key

theorem boxes (P : Process) (w : Nat) : TotalBoxes (pe w P.asm) (fun _ => [1]) := by
  intro c fs _ d bb _
  have : ((pe w P.asm).run d bb).2 = [] := by
    show (match peCall w P.asm d with | .ok l => (l, []) | .error _ => ([], [])).2 = []
    cases peCall w P.asm d <;> rfl
  refine ⟨by simp only [this]; rfl, fun b k h => ?_⟩
  cases h

/-- C90: the same with `simple_formula=True`. -/
theorem C90_mapped_simple (P : Process) (hP : MildProcess P) (enc : IEnc) {w : Nat} (hw : 0 < w) (n : Nat) (hn : 0 < n) (f : List (BitVec w) → BitVec w)
    (solve : (SAsg Nat → Prop) → Option (SAsg Nat)) (hsat : ∀ φ a, solve φ = some a → φ a) (hcomp : ∀ φ a, φ a → ∃ a', solve φ = some a') (a0 : SAsg Nat) :
    (Fits w n f → ∃ r, simpleSolve P.asm (problem w P.asm enc n f) solve a0 = .ok (some r) ∧ IsMapping P.asm (problem w P.asm enc n f) r ∧ RuleRight P (wordIr w n f) (pe w P.asm) r) ∧
    (¬ Fits w n f → simpleSolve P.asm (problem w P.asm enc n f) solve a0 = .ok none) := by
  have key := C55_instruction_known_plain P (problem w P.asm enc n f) (WIr.wordFn w f) (peFn w) (fun _ => [1]) 0 instT _ _ _ _ (shape P w enc n f) (setup P hw hn f) (pe_total P w) (boxes P w)
    (known hP) (known_leaves hP) solve hsat hcomp a0
  rw [can_iff hw hn] at key
  exact right_of (setup P hw hn f) key

/-- The function of the test fits; a difference and a function of three words do not. -/
example : Fits 8 2 (fun xs => xs[0]?.getD 0 + xs[1]?.getD 0) ∧ ¬ Fits 8 2 (fun xs => xs[0]?.getD 0 - xs[1]?.getD 0) ∧ ¬ Fits 8 3 (fun xs => ~~~ (xs[0]?.getD 0)) := by
  refine ⟨.inr ⟨rfl, .inl fun _ _ => rfl⟩, ?_, ?_⟩
  · rintro (⟨h, _⟩ | ⟨_, h | h | h⟩)
    · cases h
    · exact absurd (h 0 1) (by decide)
    · exact absurd (h 0 0) (by decide)
    · exact absurd (h 0 0) (by decide)
  · rintro (⟨h, _⟩ | ⟨h, _⟩) <;> cases h

/-- A process that has assembled nothing is one. -/
example : MildProcess ⟨fun _ => []⟩ := fun _ _ h => by cases h

end Peak.ANPe
