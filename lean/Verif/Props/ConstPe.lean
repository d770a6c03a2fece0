import Verif.Spec.RuleRight
import Verif.Spec.ConstPe
import Verif.Props.InstMapK
import Verif.Props.InstMapKnown
import Verif.Lemmas.SumPe
import Verif.Lemmas.WordIr
/-!
# C68: mapping an IR instruction with a `Const` input to the PE of `test_const`
-/

namespace Peak.CPe
open Peak Peak.Spec

theorem inst_wf (w : Nat) : WF (instT w) := ⟨by simp [Fields.toList], SPe.op_wf, trivial, trivial⟩

theorem inst_width (w : Nat) : width (instT w) = 2 + w := by simp [instT, width, sumWidths, SPe.op_width]

theorem inst_code (w op c : Nat) : rawCode (instT w) (.prod [.leaf op, .leaf c]) = op + 4 * c := by
  have ho : rawCode SPe.opT (.leaf op) = op := rfl
  simp only [instT, rawCode, rawCodeAll, SPe.op_width, ho]
  omega

theorem wordOf_bits (w n : Nat) : wordOf w (.bits (BV.ofNat w n)) = .ofNat w n := by
  apply BitVec.eq_of_toNat_eq
  simp [wordOf, BV.ofNat_val]

theorem call_num (P : Process) (w : Nat) {n : Nat} (hn : n < 2 ^ (2 + w)) (a b : Nat) (k k1 k2 : Key) :
    peCall w P.asm [(k, mkAV (instT w) n), (k1, mkAV (.bv 0 w) a), (k2, mkAV (.bv 0 w) b)] =
      .ok [.bits (BV.ofNat w (if n % 4 == 1 then BitVec.ofNat w a + BitVec.ofNat w b else BitVec.ofNat w (n / 4)).toNat)] := by
  obtain ⟨h1, h2⟩ := SPe.pair_get P (c := 3) (w := w) (n := n) (inst_wf w) hn
  have hA := SPe.isA_num P (n % 4) (Nat.mod_lt _ (by decide))
  simp only [peCall, instT, h1, h2, bind, Except.bind, hA]
  simp only [mkAV, wordOf_bits]

theorem pe_computes (P : Process) (w : Nat) : Computes P (pe w P.asm) (peFn w) := by
  refine ⟨6, peIn w, 7, peOut w, rfl, rfl, ?_⟩
  intro vs bb h
  match vs, h with
  | [v0, v1, v2], ⟨h0, h1, h2, _⟩ =>
  obtain ⟨op, c, rfl, ho, hc⟩ := SPe.pair_shape h0
  obtain ⟨a, rfl, ha⟩ := SPe.leaf_shape (.inl ⟨_, _, rfl⟩) h1
  obtain ⟨b, rfl, hb⟩ := SPe.leaf_shape (.inl ⟨_, _, rfl⟩) h2
  refine ⟨_, rfl, ⟨BitVec.isLt _, trivial⟩, ?_⟩
  have hn : op + 4 * c < 2 ^ (2 + w) := by rw [Nat.pow_add]; omega
  have hcall := call_num P w hn a b 0 1 2
  have hrun : (pe w P.asm).run (inputDict (peIn w) [.prod [.leaf op, .leaf c], .leaf a, .leaf b]) bb =
      ([.bits (BV.ofNat w (if op == 1 then BitVec.ofNat w a + BitVec.ofNat w b else BitVec.ofNat w c).toNat)], []) := by
    simp only [pe, peIn, inputDict, inst_code]
    have : peCall w P.asm [(0, mkAV (instT w) (op + 4 * c)), (1, mkAV (.bv 0 w) (rawCode (.bv 0 w) (.leaf a))), (2, mkAV (.bv 0 w) (rawCode (.bv 0 w) (.leaf b)))] = _ := hcall
    rw [this]
    have e1 : (op + 4 * c) % 4 = op := by omega
    have e2 : (op + 4 * c) / 4 = c := by omega
    rw [e1, e2]
  rw [hrun]
  exact ⟨⟨WIr.new_word P w _, trivial⟩, rfl⟩

theorem pe_total (P : Process) (w : Nat) : Spec.Total P (pe w P.asm) := by
  refine ⟨6, peIn w, 7, peOut w, rfl, rfl, ?_⟩
  intro d bb h
  match d, h with
  | [(k0, x0), (k1, x1), (k2, x2)], ⟨_, ⟨n0, h0, e0⟩, _, ⟨n1, h1, e1⟩, _, ⟨n2, h2, e2⟩, _⟩ =>
    subst e0 e1 e2
    rw [inst_width] at h0
    refine ⟨[.leaf (if n0 % 4 == 1 then BitVec.ofNat w n1 + BitVec.ofNat w n2 else BitVec.ofNat w (n0 / 4)).toNat], ⟨BitVec.isLt _, trivial⟩, ?_⟩
    simp only [pe, call_num P w h0 n1 n2 k0 k1 k2]
    exact ⟨WIr.new_word P w _, trivial⟩

theorem inst_buildable {w : Nat} (hw : 0 < w) : Buildable (instT w) := by
  refine ⟨by simp [Fields.toList], .inl ?_, by simp [Buildables, SPe.opT, Buildable]⟩
  intro kt hkt
  simp only [Fields.toList, List.mem_cons, List.not_mem_nil, or_false] at hkt
  rcases hkt with rfl | rfl
  · simp only [SPe.op_width]; decide
  · simpa [width] using hw

theorem setup (P : Process) {w : Nat} (hw : 0 < w) {n : Nat} (hn : 0 < n) (f : List (BitVec w) → BitVec w) :
    Setup P (wordIr w n f) (pe w P.asm) (WIr.wordFn w f) (peFn w) (fun _ => [1]) := by
  refine WIr.setup w n f hw hn (pe_computes P w) ?_ ?_ rfl ?_ rfl
  · refine ⟨⟨by simp [peIn, Fields.toList], inst_wf w, trivial, trivial, trivial⟩, by simp [peIn, Fields.toList], .inl ?_, inst_buildable hw, trivial, trivial, trivial⟩
    intro kt hkt
    simp only [peIn, Fields.toList, List.mem_cons, List.not_mem_nil, or_false] at hkt
    rcases hkt with rfl | rfl | rfl
    · simp only [inst_width]; omega
    · simpa [width] using hw
    · simpa [width] using hw
  · exact ⟨⟨by simp [peOut, Fields.toList], trivial, trivial⟩, ⟨by simp [peOut, Fields.toList], .inr rfl, trivial, trivial⟩, trivial, trivial⟩
  · intro r bb h
    simp only [peFn]
    split <;> rfl

theorem const_problem (P : Process) (w : Nat) (enc : IEnc) {cons : List (RPath × List Nat)} (hc : ConsOk cons) (n : Nat) (f : List (BitVec w) → BitVec w) :
    ConstProblem (problem w P.asm enc cons n f) 0 (instT w) (wordFields w 1 n) (.cons 0 (.bv 0 w) .nil) (dIn w) (peOut w) := by
  refine ⟨⟨8, rfl⟩, ⟨9, rfl⟩, ⟨6, rfl⟩, ⟨7, rfl⟩, WIr.fields_flat w 1 n, ?_, ?_, ?_, ?_, rfl, ?_, hc.2⟩
  · intro k t h
    simp only [Fields.toList, List.mem_singleton, Prod.mk.injEq] at h
    rw [h.2]
    trivial
  · intro k t h
    simp only [dIn, Fields.toList, List.mem_cons, Prod.mk.injEq, List.not_mem_nil, or_false] at h
    rcases h with ⟨_, rfl⟩ | ⟨_, rfl⟩ <;> trivial
  · intro k t h
    simp only [peOut, Fields.toList, List.mem_singleton, Prod.mk.injEq] at h
    rw [h.2]
    trivial
  · intro c h
    exact ⟨1, List.mem_singleton.mp h⟩
  · intro p cs h
    obtain ⟨h1, rfl | rfl⟩ := hc.1 p cs h
    · exact ⟨h1, [0], SPe.opT, rfl, by simp [instT, leafTypes, leafTypesF, SPe.opT]⟩
    · exact ⟨h1, [1], .bv 0 w, rfl, by simp [instT, leafTypes, leafTypesF, SPe.opT]⟩

theorem op_mild : Mild SPe.opT := ⟨1, by decide +kernel, by decide⟩

theorem known {P : Process} (hP : MildProcess P) (w : Nat) : Known P (instT w) := by
  intro t' ht
  rcases List.mem_cons.mp ht with rfl | ht
  · exact ⟨inst_wf w, op_mild, trivial, trivial⟩
  · exact hP _ _ ht

theorem known_leaves {P : Process} (hP : MildProcess P) (w : Nat) : ∀ p c ms, (p, Ty.enum c ms) ∈ leafTypes (instT w) [] → Known P (.enum c ms) := by
  intro p c ms h t' ht
  rcases List.mem_cons.mp ht with rfl | ht
  · have hm : Ty.enum c ms = SPe.opT := by
      simp [instT, leafTypes, leafTypesF, SPe.opT] at h ⊢
      exact h.2
    rw [hm]
    exact ⟨SPe.op_wf, op_mild⟩
  · exact hP _ _ ht

theorem accepts_op (n : Nat) (hn : n < 4) : Accepts SPe.opT n ↔ n = 1 ∨ n = 2 := by
  have hw := SPe.op_width
  have e : (enumCodes [SPe.memA, .lit 2]) = [1, 2] := by decide +kernel
  have hns : ¬ SeveralRanges (enumCodes [SPe.memA, .lit 2]).dedup := by
    intro h
    rw [e] at h
    exact h.2.1 (by decide +kernel)
  simp only [SPe.opT, Accepts]
  rw [← SPe.opT, hw, e, Nat.mod_eq_of_lt hn, e.symm]
  simp only [hns, false_or]
  rw [e]
  simp

theorem inst_leaves (w op c : Nat) : rawLeaves (instT w) (.prod [.leaf op, .leaf c]) = [([0], SPe.opT, op), ([1], .bv 0 w, c)] := by
  simp [instT, rawLeaves, rawLeavesAll, SPe.opT]

theorem inst_has {w op c : Nat} (ho : op < 4) (hc : c < 2 ^ w) : RHas (instT w) (.prod [.leaf op, .leaf c]) := by
  refine ⟨?_, hc, trivial⟩
  have := SPe.op_width
  unfold SPe.opT at this ⊢
  simp only [RHas, this]
  exact ho

theorem valid_iff {P : Process} (hP : MildProcess P) {w op c : Nat} (ho : op < 4) (hc : c < 2 ^ w) :
    isValidAV P.asm (mkAV (instT w) (rawCode (instT w) (.prod [.leaf op, .leaf c]))) = .ok true ↔ op = 1 ∨ op = 2 := by
  have hi := inst_has ho hc
  rw [(known hP w).valid_iff _ (SB.code_lt _ _ (inst_wf w) hi), Acc.accepts_leaves _ _ (inst_wf w) hi, inst_leaves]
  have : Accepts (Ty.bv 0 w) c := trivial
  simp [this, accepts_op op ho]

theorem ofNat_mod (w n : Nat) : BitVec.ofNat w (n % 2 ^ w) = .ofNat w n := by
  apply BitVec.eq_of_toNat_eq
  simp

theorem words_get {w n : Nat} {x : Key → Nat} {j : Nat} (h : j < n) :
    ((rowOf (wordFields w 1 n) x).map (WIr.leafWord w))[j]?.getD 0 = .ofNat w (x (j + 1)) := by
  have key : ∀ (n i j : Nat), j < n → ((rowOf (wordFields w i n) x).map (WIr.leafWord w))[j]? = some (.ofNat w (x (i + j))) := by
    intro n
    induction n with
    | zero => intro i j h; omega
    | succ n ih =>
      intro i j h
      cases j with
      | zero => simp [wordFields, rowOf, WIr.leafWord, width, ← ofNat_mod w (x i)]
      | succ j =>
        have := ih (i + 1) j (by omega)
        simp only [wordFields, rowOf, List.map_cons, List.getElem?_cons_succ, this]
        rw [show i + 1 + j = i + (j + 1) by omega]
  rw [key n 1 j h, Option.getD_some, Nat.add_comm]

theorem words_length (w : Nat) (x : Key → Nat) : ∀ n i, ((rowOf (wordFields w i n) x).map (WIr.leafWord w)).length = n := by
  intro n
  induction n with
  | zero => intro i; rfl
  | succ n ih => intro i; simpa [wordFields, rowOf] using ih (i + 1)

theorem words_env {w n : Nat} {xs : List (BitVec w)} (h : xs.length = n) :
    (rowOf (wordFields w 1 n) (fun k => (xs[k - 1]?.getD 0).toNat)).map (WIr.leafWord w) = xs := by
  have hl := words_length w (fun k => (xs[k - 1]?.getD 0).toNat) n 1
  apply List.ext_getElem (by rw [hl, h])
  intro j h1 h2
  have := words_get (w := w) (n := n) (x := fun k => (xs[k - 1]?.getD 0).toNat) (j := j) (by omega)
  rw [List.getElem?_eq_getElem h1] at this
  simpa [List.getElem?_eq_getElem h2] using this

theorem holds_eq {w : Nat} {src : RPath → Option Key} {x : Key → Nat} {op c op' c' : Nat} (h : Holds 0 (instT w) src x (.prod [.leaf op, .leaf c]) (.prod [.leaf op', .leaf c'])) :
    (src [0, 0] = none → op' = op) ∧ ∀ q, src [0, 1] = some q → c' = x q % 2 ^ w := by
  have := h.2
  rw [inst_leaves, inst_leaves] at this
  simp only [List.map_cons, List.map_nil, List.cons.injEq, Prod.mk.injEq, true_and, and_true] at this
  refine ⟨fun hn => ?_, fun q hq => ?_⟩
  · rw [hn] at this; exact this.1
  · rw [hq] at this; exact this.2

theorem input_paths (w op c : Nat) : inputPaths 0 (instT w) (dIn w) (.prod [.leaf op, .leaf c]) = [[0, 0], [0, 1], [1], [2]] := by
  simp [inputPaths, inst_leaves, dIn, Fields.toList]

/-- Where the IR inputs go. -/
theorem feeds_inv {P : Process} {w : Nat} {enc : IEnc} {cons : List (RPath × List Nat)} {n : Nat} (hn : 0 < n) {f : List (BitVec w) → BitVec w} {op c : Nat} {src : RPath → Option Key}
    (h : Feeds (problem w P.asm enc cons n f) 0 (instT w) (wordFields w 1 n) (dIn w) (.prod [.leaf op, .leaf c]) src) :
    src [0, 0] = none ∧ src [0, 1] = some 1 ∧ (∀ cs, ([0, 1], cs) ∉ cons) ∧
      (∀ q : Nat, 2 ≤ q → q ≤ n → src [1] = some q ∨ src [2] = some q) ∧ ∀ k q : Nat, k = 1 ∨ k = 2 → src [k] = some q → 2 ≤ q ∧ q ≤ n := by
  have hp := input_paths w op c
  have hd : ∀ k q : Nat, k = 1 ∨ k = 2 → src [k] = some q → 2 ≤ q ∧ q ≤ n := by
    intro k q hk hq
    have := h.data k (.bv 0 w) q (by rcases hk with rfl | rfl <;> simp [dIn, Fields.toList]) hq
    obtain ⟨h1, h2, _⟩ := WIr.fields_mem.mp this.1
    have h3 : q ≠ 1 := fun e => this.2 (by simp [problem, e])
    have h1' : 1 ≤ q := h1
    have h2' : q < 1 + n := h2
    omega
  have h00 : src [0, 0] = none := by
    cases hs : src [0, 0] with
    | none => rfl
    | some q =>
      have := h.inst_leaf [0] SPe.opT op q (by simp [inst_leaves]) hs
      have := (WIr.fields_mem.mp this.1).2.2
      simp [SPe.opT] at this
  have h01 : src [0, 1] = some 1 := by
    obtain ⟨p, hp1, hp2, _⟩ := h.once 1 (.bv 0 w) (WIr.fields_mem.mpr ⟨Nat.le_refl _, by omega, rfl⟩)
    rw [hp] at hp1
    simp only [List.mem_cons, List.not_mem_nil, or_false] at hp1
    rcases hp1 with rfl | rfl | rfl | rfl
    · rw [h00] at hp2; cases hp2
    · exact hp2
    · exact absurd (hd 1 1 (.inl rfl) hp2).1 (by decide)
    · exact absurd (hd 2 1 (.inr rfl) hp2).1 (by decide)
  refine ⟨h00, h01, (h.inst_leaf [1] (.bv 0 w) c 1 (by simp [inst_leaves]) h01).2.2, ?_, hd⟩
  intro q hq1 hq2
  obtain ⟨p, hp1, hp2, _⟩ := h.once q (.bv 0 w) (WIr.fields_mem.mpr ⟨by omega, by omega, rfl⟩)
  rw [hp] at hp1
  simp only [List.mem_cons, List.not_mem_nil, or_false] at hp1
  rcases hp1 with rfl | rfl | rfl | rfl
  · rw [h00] at hp2; cases hp2
  · rw [h01] at hp2
    have : (1 : Nat) = q := Option.some.inj hp2
    omega
  · exact .inl hp2
  · exact .inr hp2

/-- Which functions of a constant and words are computed. -/
theorem can_iff {P : Process} (hP : MildProcess P) {w : Nat} (hw : 0 < w) {enc : IEnc} {cons : List (RPath × List Nat)} {n : Nat} (hn : 0 < n) {f : List (BitVec w) → BitVec w} :
    CanComputeConsts P.asm (problem w P.asm enc cons n f) (WIr.wordFn w f) (peFn w) 0 (instT w) (wordFields w 1 n) (.cons 0 (.bv 0 w) .nil) (dIn w) (peOut w) ↔ Fits cons n f := by
  have hob : ∀ op c, op < 4 → Obeys cons 0 (instT w) (.prod [.leaf op, .leaf c]) → MayBe cons op := by
    intro op c ho h cs hcs
    have := h [0] SPe.opT op (by simp [inst_leaves]) cs hcs
    rw [SPe.op_width] at this
    obtain ⟨m, h1, h2⟩ := this
    exact ⟨m, h1, h2.symm⟩
  constructor
  · rintro ⟨inst, src, out, hi, hv, hobey, hF, hO, hfn⟩
    obtain ⟨op, c, rfl, ho, hc⟩ := SPe.pair_shape hi
    rw [valid_iff hP ho hc] at hv
    obtain ⟨h00, h01, hun, hcov, hrng⟩ := feeds_inv hn hF
    have hmay := hob op c ho hobey
    obtain ⟨o, ho1, ho2, _⟩ := hO.once 0 (.bv 0 w) (by simp [Fields.toList])
    have : o = 0 := by simpa [peOut, Fields.toList] using ho1
    subst this
    have key : ∀ x z : Key → Nat, f ((rowOf (wordFields w 1 n) x).map (WIr.leafWord w)) =
        if op == 1 then BitVec.ofNat w (wired (fun k => src [k]) x z 1) + BitVec.ofNat w (wired (fun k => src [k]) x z 2) else .ofNat w (x 1) := by
      intro x z
      obtain ⟨inst', hH⟩ := InM.holds_exists (k0 := 0) (inst_wf w) hi src x
      obtain ⟨op', c', rfl, _, _⟩ := SPe.pair_shape hH.1
      obtain ⟨e1, e2⟩ := holds_eq hH
      have e1 := e1 h00
      have e2 := e2 1 h01
      subst e1 e2
      have := hfn x z _ (fun _ _ => []) (fun _ _ => 0) (fun _ _ => 0) hH (by simp [BoxesCompute, problem, wordIr]) (by simp [BoxesCompute, problem, pe]) 0 (by simp [peOut, Fields.toList]) 0 ho2
      simp only [dIn, rowOf, peFn, WIr.wordFn, prodBits, peOut, fieldBits, if_true, width, ofNat_mod] at this
      exact (BitVec.eq_of_toNat_eq this).symm
    have hn3 : n ≤ 3 := by
      by_contra hgt
      have h2 := hcov 2 (by omega) (by omega)
      have h3 := hcov 3 (by omega) (by omega)
      have h4 := hcov 4 (by omega) (by omega)
      have inj : ∀ a b : Nat, some a = some b → a = b := fun a b h => Option.some.inj h
      rcases h2 with h2 | h2 <;> rcases h3 with h3 | h3 <;> rcases h4 with h4 | h4 <;>
        first
        | exact absurd (inj _ _ (h2.symm.trans h3)) (by decide)
        | exact absurd (inj _ _ (h2.symm.trans h4)) (by decide)
        | exact absurd (inj _ _ (h3.symm.trans h4)) (by decide)
    refine ⟨hun, ?_⟩
    rcases hv with rfl | rfl
    · right
      simp only [beq_self_eq_true, if_true] at key
      have hbound : ∀ k : Nat, k = 1 ∨ k = 2 → src [k] ≠ none := by
        intro k hk hnone
        -- a free word would change the sum
        have hz : ∀ z : Key → Nat, (∀ k', k' ≠ k → z k' = 0) → BitVec.ofNat w (wired (fun k => src [k]) (fun _ => 0) z 1) + BitVec.ofNat w (wired (fun k => src [k]) (fun _ => 0) z 2) = .ofNat w (z k) := by
          intro z hz
          have other : ∀ k', k' ≠ k → wired (fun k => src [k]) (fun _ => 0) z k' = 0 := by
            intro k' hk'
            cases hs : src [k'] with
            | none => simp only [wired, hs]; exact hz k' hk'
            | some _ => simp only [wired, hs]
          have this' : wired (fun k => src [k]) (fun _ => 0) z k = z k := by simp only [wired, hnone]
          rcases hk with rfl | rfl
          · rw [this', other 2 (by decide)]; simp
          · rw [this', other 1 (by decide)]; simp
        have h0 := (key (fun _ => 0) (fun _ => 0)).symm.trans (key (fun _ => 0) (fun k' => if k' = k then 1 else 0))
        rw [hz _ (fun _ _ => rfl), hz _ (fun k' hk' => by simp [hk'])] at h0
        simp only [if_true] at h0
        have := congrArg BitVec.toNat h0
        simp only [BitVec.toNat_ofNat, Nat.zero_mod] at this
        rw [Nat.mod_eq_of_lt (Nat.one_lt_two_pow (by omega))] at this
        cases this
      obtain ⟨q1, hq1⟩ := Option.ne_none_iff_exists'.mp (hbound 1 (.inl rfl))
      obtain ⟨q2, hq2⟩ := Option.ne_none_iff_exists'.mp (hbound 2 (.inr rfl))
      have r1 := hrng 1 q1 (.inl rfl) hq1
      have r2 := hrng 2 q2 (.inr rfl) hq2
      have hne : q1 ≠ q2 := by
        rintro rfl
        obtain ⟨p, _, _, hu⟩ := hF.once q1 (.bv 0 w) (WIr.fields_mem.mpr ⟨Nat.le_trans (by decide) r1.1, Nat.lt_of_le_of_lt r1.2 (by omega), rfl⟩)
        rw [input_paths] at hu
        have := (hu [1] (by simp) hq1).trans (hu [2] (by simp) hq2).symm
        exact absurd this (by decide)
      have nat_case : ∀ a b : Nat, 2 ≤ a ∧ a ≤ n → 2 ≤ b ∧ b ≤ n → a ≠ b → (a = 2 ∧ b = 3 ∨ a = 3 ∧ b = 2) ∧ n = 3 := by
        intro a b h1 h2 h3
        omega
      have hq : (q1 = (2 : Nat) ∧ q2 = (3 : Nat) ∨ q1 = (3 : Nat) ∧ q2 = (2 : Nat)) ∧ n = 3 := nat_case q1 q2 r1 r2 hne
      obtain ⟨hq, rfl⟩ := hq
      refine ⟨hmay, rfl, fun xs hxs => ?_⟩
      have := key (fun k => (xs[k - 1]?.getD 0).toNat) (fun _ => 0)
      rw [words_env hxs] at this
      simp only [wired, hq1, hq2] at this
      rw [this]
      rcases hq with ⟨rfl, rfl⟩ | ⟨rfl, rfl⟩
      · simp
      · simp [BitVec.add_comm]
    · left
      simp only [show (2 == 1) = false from rfl, Bool.false_eq_true, if_false] at key
      refine ⟨hmay, hn3, fun xs hxs => ?_⟩
      have := key (fun k => (xs[k - 1]?.getD 0).toNat) (fun _ => 0)
      rw [words_env hxs] at this
      rw [this]
      simp
  · rintro ⟨hun, hfit⟩
    have hn3 : n ≤ 3 := by rcases hfit with ⟨_, h, _⟩ | ⟨_, h, _⟩ <;> omega
    obtain ⟨op, hop, hmay, hfn⟩ : ∃ op : Nat, (op = 1 ∨ op = 2) ∧ MayBe cons op ∧ ∀ x : Key → Nat, f ((rowOf (wordFields w 1 n) x).map (WIr.leafWord w)) =
        if op == 1 then BitVec.ofNat w (x 2) + BitVec.ofNat w (x 3) else .ofNat w (x 1) := by
      rcases hfit with ⟨hm, _, hf⟩ | ⟨hm, rfl, hf⟩
      · exact ⟨2, .inr rfl, hm, fun x => by rw [hf _ (words_length w x n 1), words_get hn]; rfl⟩
      · exact ⟨1, .inl rfl, hm, fun x => by rw [hf _ (words_length w x 3 1), words_get (by decide), words_get (by decide)]; rfl⟩
    have hop3 : op = 1 → n = 3 := by
      rintro rfl
      by_contra hne
      -- the sum of words that are not there is not a function of the others
      have h0 := hfn (fun _ => 0)
      have h1 := hfn (fun k => if k = 3 then 1 else 0)
      have e : (rowOf (wordFields w 1 n) (fun _ => 0)).map (WIr.leafWord w) = (rowOf (wordFields w 1 n) (fun k => if k = 3 then 1 else 0)).map (WIr.leafWord w) := by
        congr 1
        apply InM.row_congr
        intro k t hk
        obtain ⟨a1, a2, _⟩ := WIr.fields_mem.mp hk
        have a1' : 1 ≤ (k : Nat) := a1
        have a2' : (k : Nat) < 1 + n := a2
        have : k ≠ 3 := by
          intro e
          rw [e] at a2'
          exact hne (by have : 3 < 1 + n := a2'; omega)
        simp [this]
      rw [← e, h0] at h1
      simp only [beq_self_eq_true, if_true] at h1
      have := congrArg BitVec.toNat h1
      simp at this
      omega
    let src : RPath → Option Key := fun p => if p = [0, 1] then some 1 else if p = [1] ∧ 2 ≤ n then some 2 else if p = [2] ∧ 3 ≤ n then some 3 else none
    have s00 : src [0, 0] = none := by simp [src]
    have s01 : src [0, 1] = some 1 := by simp [src]
    have s1 : src [1] = if 2 ≤ n then some 2 else none := by simp [src]
    have s2 : src [2] = if 3 ≤ n then some 3 else none := by simp [src]
    have hi : RHas (instT w) (.prod [.leaf op, .leaf 0]) := inst_has (by omega) (Nat.two_pow_pos _)
    have hF : Feeds (problem w P.asm enc cons n f) 0 (instT w) (wordFields w 1 n) (dIn w) (.prod [.leaf op, .leaf 0]) src := by
      refine ⟨?_, ?_, ?_⟩
      · intro p t m q hp hq
        rw [inst_leaves] at hp
        simp only [List.mem_cons, List.not_mem_nil, or_false, Prod.mk.injEq] at hp
        rcases hp with ⟨rfl, rfl, rfl⟩ | ⟨rfl, rfl, rfl⟩
        · rw [s00] at hq; cases hq
        · rw [s01] at hq
          cases hq
          exact ⟨WIr.fields_mem.mpr ⟨Nat.le_refl _, by omega, rfl⟩, by simp [problem], hun⟩
      · intro k t q hk hq
        simp only [dIn, Fields.toList, List.mem_cons, List.not_mem_nil, or_false, Prod.mk.injEq] at hk
        rcases hk with ⟨rfl, rfl⟩ | ⟨rfl, rfl⟩
        · rw [s1] at hq
          split at hq <;> cases hq
          exact ⟨WIr.fields_mem.mpr ⟨by decide, by omega, rfl⟩, by simp [problem]⟩
        · rw [s2] at hq
          split at hq <;> cases hq
          exact ⟨WIr.fields_mem.mpr ⟨by decide, by omega, rfl⟩, by simp [problem]⟩
      · intro q t hq
        obtain ⟨a1, a2, _⟩ := WIr.fields_mem.mp hq
        have a1' : 1 ≤ (q : Nat) := a1
        have a2' : (q : Nat) < 1 + n := a2
        rw [input_paths]
        have nat_case : ∀ a : Nat, 1 ≤ a → a < 1 + n → a = 1 ∨ a = 2 ∧ 2 ≤ n ∨ a = 3 ∧ 3 ≤ n := by
          intro a h1 h2
          omega
        have hcase := nat_case q a1' a2'
        rcases hcase with rfl | ⟨rfl, h2⟩ | ⟨rfl, h3⟩
        · refine ⟨[0, 1], by simp, s01, ?_⟩
          intro p hp hs
          simp only [List.mem_cons, List.not_mem_nil, or_false] at hp
          rcases hp with rfl | rfl | rfl | rfl
          · rw [s00] at hs; cases hs
          · rfl
          · rw [s1] at hs; split at hs <;> cases hs
          · rw [s2] at hs; split at hs <;> cases hs
        · refine ⟨[1], by simp, by rw [s1, if_pos h2], ?_⟩
          intro p hp hs
          simp only [List.mem_cons, List.not_mem_nil, or_false] at hp
          rcases hp with rfl | rfl | rfl | rfl
          · rw [s00] at hs; cases hs
          · rw [s01] at hs; cases hs
          · rfl
          · rw [s2] at hs; split at hs <;> cases hs
        · refine ⟨[2], by simp, by rw [s2, if_pos h3], ?_⟩
          intro p hp hs
          simp only [List.mem_cons, List.not_mem_nil, or_false] at hp
          rcases hp with rfl | rfl | rfl | rfl
          · rw [s00] at hs; cases hs
          · rw [s01] at hs; cases hs
          · rw [s1] at hs; split at hs <;> cases hs
          · rfl
    refine ⟨.prod [.leaf op, .leaf 0], src, fun k => if k = 0 then some 0 else none, hi, (valid_iff hP (by omega) (Nat.two_pow_pos _)).mpr hop, ?_, hF, ⟨?_, ?_⟩, ?_⟩
    · intro p t m hp cs hcs
      rw [inst_leaves] at hp
      simp only [List.mem_cons, List.not_mem_nil, or_false, Prod.mk.injEq] at hp
      rcases hp with ⟨rfl, rfl, rfl⟩ | ⟨rfl, rfl, rfl⟩
      · rw [SPe.op_width]
        obtain ⟨m, h1, h2⟩ := hmay cs hcs
        exact ⟨m, h1, h2.symm⟩
      · exact absurd hcs (hun cs)
    · intro k t q hk hq
      simp only [peOut, Fields.toList, List.mem_singleton, Prod.mk.injEq] at hk
      obtain ⟨rfl, rfl⟩ := hk
      simp at hq
      subst hq
      simp [Fields.toList]
    · intro q t hq
      simp only [Fields.toList, List.mem_singleton, Prod.mk.injEq] at hq
      obtain ⟨rfl, rfl⟩ := hq
      simp [peOut, Fields.toList]
    · intro x z inst' F ρi ρa hH _ _ k hk q hq
      have hk0 : k = 0 := by simpa [peOut, Fields.toList] using hk
      subst hk0
      simp only [if_true, Option.some.injEq] at hq
      subst hq
      obtain ⟨op', c', rfl, _, _⟩ := SPe.pair_shape hH.1
      obtain ⟨e1, e2⟩ := holds_eq hH
      have e1 := e1 s00
      have e2 := e2 1 s01
      subst e1 e2
      simp only [dIn, rowOf, peFn, WIr.wordFn, prodBits, peOut, fieldBits, if_true, width, ofNat_mod, hfn x]
      rcases hop with rfl | rfl
      · have := hop3 rfl
        subst this
        simp [wired, s1, s2]
      · rfl

/-- C68: with any width, any constraints on the instruction, either encoding of the index variables and any sound and complete solver, an IR instruction with a `Const` word and `n - 1` other words
is mapped to the PE if and only if it returns the constant, with at most two other words, or the sum of two other words; the immediate must not be constrained, and the operation must be
allowed. Otherwise the result is `None`. -/
theorem C68_mapped (P : Process) (hP : MildProcess P) (w : Nat) (hw : 0 < w) (enc : IEnc) (cons : List (RPath × List Nat)) (hc : ConsOk cons) (n : Nat) (hn : 0 < n) (f : List (BitVec w) → BitVec w)
    (solve : (MAsg Nat → Prop) → Option (MAsg Nat)) (hsat : ∀ φ a, solve φ = some a → φ a) (hcomp : ∀ φ a, φ a → ∃ a', solve φ = some a') (a0 : MAsg Nat) :
    (Fits cons n f → ∃ r, mapSolve P.asm (problem w P.asm enc cons n f) solve a0 = .ok (some r) ∧ IsMapping P.asm (problem w P.asm enc cons n f) r ∧
      RuleRight P (wordIr w n f) (pe w P.asm) r) ∧
    (¬ Fits cons n f → mapSolve P.asm (problem w P.asm enc cons n f) solve a0 = .ok none) := by
  have key := C33_instruction_consts P (problem w P.asm enc cons n f) (WIr.wordFn w f) (peFn w) (fun _ => [1]) 0 (instT w) _ _ _ _ (const_problem P w enc hc n f) rfl rfl
    (setup P hw hn f) (pe_total P w) ((known hP w).leaves (known_leaves hP w)) solve hsat hcomp a0
  rw [can_iff hP hw hn] at key
  exact right_of (setup P hw hn f) key

/-- C68: the same with `simple_formula=True`. -/
theorem C68_mapped_simple (P : Process) (hP : MildProcess P) (w : Nat) (hw : 0 < w) (enc : IEnc) (cons : List (RPath × List Nat)) (hc : ConsOk cons) (n : Nat) (hn : 0 < n)
    (f : List (BitVec w) → BitVec w)
    (solve : (SAsg Nat → Prop) → Option (SAsg Nat)) (hsat : ∀ φ a, solve φ = some a → φ a) (hcomp : ∀ φ a, φ a → ∃ a', solve φ = some a') (a0 : SAsg Nat) :
    (Fits cons n f → ∃ r, simpleSolve P.asm (problem w P.asm enc cons n f) solve a0 = .ok (some r) ∧ IsMapping P.asm (problem w P.asm enc cons n f) r ∧
      RuleRight P (wordIr w n f) (pe w P.asm) r) ∧
    (¬ Fits cons n f → simpleSolve P.asm (problem w P.asm enc cons n f) solve a0 = .ok none) := by
  have key := C55_instruction_consts P (problem w P.asm enc cons n f) (WIr.wordFn w f) (peFn w) (fun _ => [1]) 0 (instT w) _ _ _ _ (const_problem P w enc hc n f)
    (setup P hw hn f) (pe_total P w) (by
      intro c fs _ d bb _
      have : ((pe w P.asm).run d bb).2 = [] := by
        show (match peCall w P.asm d with | .ok l => (l, []) | .error _ => ([], [])).2 = []
        cases peCall w P.asm d <;> rfl
      refine ⟨by simp only [problem, this]; rfl, fun b k h => ?_⟩
      cases h) ((known hP w).leaves (known_leaves hP w))
    (by
      intro q c ms _ h
      have := (WIr.fields_mem.mp h).2.2
      cases this)
    (by
      intro q t hq _ r p p' m m' hr h1 h2
      obtain ⟨_, _, rfl⟩ := WIr.fields_mem.mp hq
      obtain ⟨op, c, rfl, _, _⟩ := SPe.pair_shape hr
      rw [inst_leaves] at h1 h2
      simp [SPe.opT] at h1 h2
      rw [h1.1, h2.1])
    (by
      intro inst inst' src x hi hv hF hH
      obtain ⟨op, c, rfl, ho, hc⟩ := SPe.pair_shape hi
      obtain ⟨op', c', rfl, ho', hc'⟩ := SPe.pair_shape hH.1
      have e := (holds_eq hH).1 (feeds_inv hn hF).1
      rw [valid_iff hP ho hc] at hv
      rw [valid_iff hP ho' hc', e]
      exact hv)
    solve hsat hcomp a0
  rw [can_iff hP hw hn] at key
  exact right_of (setup P hw hn f) key

/-- C68: every mapping gives the constant to the immediate. -/
theorem C68_immediate (P : Process) (w : Nat) (enc : IEnc) (cons : List (RPath × List Nat)) (n : Nat) (hn : 0 < n) (f : List (BitVec w) → BitVec w) (r : RRule)
    (hM : IsMapping P.asm (problem w P.asm enc cons n f) r) : (RSrc.path [1], [0, 1]) ∈ r.ib := by
  obtain ⟨ri, vs, hR, _⟩ := hM.input
  have hri := hR.ir
  simp only [problem, wordIr] at hri
  match ri, hri with
  | .prod us, hri =>
  have e := InM.row_of_has (WIr.fields_flat w 1 n) (WIr.fields_nodup w 1 n) hri
  have h1 : [1] ∈ irSources r.ib := by
    refine hR.ir_paths.symm.subset ?_
    rw [e]
    simp only [problem, wordIr, rawLeaves, InM.row_leaves (WIr.fields_flat w 1 n)]
    exact List.mem_map.mpr ⟨_, List.mem_map.mpr ⟨(1, .bv 0 w), WIr.fields_mem.mpr ⟨Nat.le_refl _, by omega, rfl⟩, rfl⟩, rfl⟩
  obtain ⟨⟨s, p⟩, h2, h3⟩ := List.mem_filterMap.mp h1
  cases s with
  | unbound => cases h3
  | const _ => cases h3
  | path q =>
    cases h3
    obtain ⟨_, g1, t, g2, g3⟩ := hM.bound _ _ h2
    have hp := g1.mp ⟨[1], by simp [problem], List.prefix_refl _⟩
    have ht : t = .bv 0 w := by
      simp only [problem, wordIr, leafTypes, InM.flat_types (WIr.fields_flat w 1 n), List.mem_map, Prod.mk.injEq] at g2
      obtain ⟨⟨k, t'⟩, hk, _, rfl⟩ := g2
      exact (WIr.fields_mem.mp hk).2.2
    subst ht
    have hp' : p = [0, 1] ∨ p = [1] ∨ p = [2] := by
      simpa [problem, pe, peIn, instT, SPe.opT, leafTypes, leafTypesF] using g3
    rcases hp' with rfl | rfl | rfl
    · exact h2
    · exact absurd hp (by simp [problem, IsConst])
    · exact absurd hp (by simp [problem, IsConst])

/-- C68: test_const and test_const_tuple (tests/test_aadt_mapping.py:222-307), with both formulas and for every sound and complete solver: a rule is found, it is correct, and it gives the constant to the
immediate. -/
theorem C68_test_const (P : Process) (hP : MildProcess P) (enc : IEnc)
    (solve : (MAsg Nat → Prop) → Option (MAsg Nat)) (hsat : ∀ φ a, solve φ = some a → φ a) (hcomp : ∀ φ a, φ a → ∃ a', solve φ = some a') (a0 : MAsg Nat)
    (solve' : (SAsg Nat → Prop) → Option (SAsg Nat)) (hsat' : ∀ φ a, solve' φ = some a → φ a) (hcomp' : ∀ φ a, φ a → ∃ a', solve' φ = some a') (a0' : SAsg Nat) :
    (∃ r, mapSolve P.asm (problem 16 P.asm enc [] 1 (fun xs => xs[0]?.getD 0)) solve a0 = .ok (some r) ∧ (RSrc.path [1], [0, 1]) ∈ r.ib) ∧
    (∃ r, simpleSolve P.asm (problem 16 P.asm enc [] 1 (fun xs => xs[0]?.getD 0)) solve' a0' = .ok (some r) ∧ (RSrc.path [1], [0, 1]) ∈ r.ib) := by
  have hf : Fits (w := 16) [] 1 (fun xs => xs[0]?.getD 0) := ⟨by simp, .inl ⟨by simp [MayBe], by decide, fun _ _ => rfl⟩⟩
  have hc : ConsOk [] := ⟨by simp, by simp⟩
  obtain ⟨r, h1, h2, _⟩ := (C68_mapped P hP 16 (by decide) enc [] hc 1 (by decide) _ solve hsat hcomp a0).1 hf
  obtain ⟨r', h1', h2', _⟩ := (C68_mapped_simple P hP 16 (by decide) enc [] hc 1 (by decide) _ solve' hsat' hcomp' a0').1 hf
  exact ⟨⟨r, h1, C68_immediate P 16 enc [] 1 (by decide) _ r h2⟩, r', h1', C68_immediate P 16 enc [] 1 (by decide) _ r' h2'⟩

/-- The sum of the other words fits, the sum of the constant and a word does not. -/
example : Fits (w := 16) [([0, 0], [1])] 3 (fun xs => xs[1]?.getD 0 + xs[2]?.getD 0) ∧ ¬ Fits (w := 16) [] 2 (fun xs => xs[0]?.getD 0 + xs[1]?.getD 0) ∧
    ¬ Fits (w := 16) [([0, 0], [1])] 1 (fun xs => xs[0]?.getD 0) := by
  refine ⟨⟨by simp, .inr ⟨by simp [MayBe], rfl, fun _ _ => rfl⟩⟩, ?_, ?_⟩
  · rintro ⟨_, ⟨_, _, h⟩ | ⟨_, h, _⟩⟩
    · exact absurd (h [0, 1] rfl) (by decide)
    · cases h
  · rintro ⟨_, ⟨h, _⟩ | ⟨_, h, _⟩⟩
    · exact absurd (h [1] (by simp)) (by decide)
    · cases h

end Peak.CPe
