import Verif.Lemmas.BasicPe
/-!
# C88: mapping to the architecture of `tests/test_basic_rr.py`
-/

namespace Peak.BPe
open Peak Peak.Spec

/-- What the leaf `p` of the instruction holds. -/
def held (src : RPath → Option Key) (x : Key → Nat) (p : RPath) (n : Nat) : Nat :=
  match src p with
  | some q => x q % 256
  | none => n

theorem holds_rr {A : Ty → Except Err AsmObj} {enc : IEnc} {const : Bool} {n : Nat} {f : List Word → Word} {op a b c : Nat} {src : RPath → Option Key} {x : Key → Nat} {inst' : RVal}
    (hF : Feeds (problem A enc const n f) 0 instT (wordFields 8 1 n) dIn (rr op a b c) src) (h : Holds 0 instT src x (rr op a b c) inst') : ∃ a' b' c', inst' = rr op a' b' c' := by
  have hl := h.2
  have h0 := feeds_leaf hF (p := [1, 0]) (t := rrOpT) (m := op) (by simp [rr_leaves])
  have h0 : src [0, 1, 0] = none := by
    rcases h0 with h | ⟨_, _, h⟩
    · exact h
    · cases h
  rw [rr_leaves] at hl
  rcases inst_shape h.1 with ⟨op', a', b', c', rfl, _⟩ | ⟨op', a', b', i', j', rfl, _⟩
  · rw [rr_leaves] at hl
    simp only [List.map_cons, List.cons.injEq, Prod.mk.injEq, h0, true_and] at hl
    obtain ⟨rfl, _⟩ := hl
    exact ⟨_, _, _, rfl⟩
  · rw [ri_leaves] at hl
    simp at hl

theorem holds_ri {A : Ty → Except Err AsmObj} {enc : IEnc} {const : Bool} {n : Nat} {f : List Word → Word} {op a b i j : Nat} {src : RPath → Option Key} {x : Key → Nat} {inst' : RVal}
    (hF : Feeds (problem A enc const n f) 0 instT (wordFields 8 1 n) dIn (ri op a b i j) src) (h : Holds 0 instT src x (ri op a b i j) inst') :
    ∃ a' b' i', inst' = ri op a' b' i' (held src x [0, 0, 4] j) := by
  have hl := h.2
  have h0 := feeds_leaf hF (p := [0, 0]) (t := riOpT) (m := op) (by simp [ri_leaves])
  have h0 : src [0, 0, 0] = none := by
    rcases h0 with h | ⟨_, _, h⟩
    · exact h
    · cases h
  rw [ri_leaves] at hl
  rcases inst_shape h.1 with ⟨op', a', b', c', rfl, _⟩ | ⟨op', a', b', i', j', rfl, _⟩
  · rw [rr_leaves] at hl
    simp at hl
  · rw [ri_leaves] at hl
    simp only [List.map_cons, List.map_nil, List.cons.injEq, Prod.mk.injEq, h0, true_and] at hl
    obtain ⟨rfl, _, _, _, h4, _⟩ := hl
    refine ⟨a', b', i', ?_⟩
    rw [h4]
    rfl

/-- The outputs, from the instruction and the words in the registers. -/
def outv (k : Nat) (inst : RVal) (a b : Word) : Word := if k = 0 then res inst a b else a

theorem fn_out (inst : RVal) (src : Key → Option Key) (x z : Key → Nat) {k : Nat} (hk : k = 0 ∨ k = 1) :
    prodBits peOut (peFn (.prod (inst :: rowOf dIn (wired src x z))) []).1 k = (outv k inst (.ofNat 8 (wired src x z 1)) (.ofNat 8 (wired src x z 2))).toNat := by
  rcases hk with rfl | rfl <;>
    simp [dIn, rowOf, peFn, prodBits, peOut, fieldBits, outv, width, wordT, ← CPe.ofNat_mod 8 (wired src x z 1), ← CPe.ofNat_mod 8 (wired src x z 2)]

theorem fn_ir (n : Nat) (f : List Word → Word) (x : Key → Nat) :
    prodBits (.cons 0 wordT .nil) (WIr.wordFn 8 f (.prod (rowOf (wordFields 8 1 n) x)) []).1 0 = (f ((rowOf (wordFields 8 1 n) x).map (WIr.leafWord 8))).toNat := by
  simp [WIr.wordFn, prodBits, fieldBits]

/-- The words given as a list. -/
def env (xs : List Word) : Key → Nat := fun k => (xs[k - 1]?.getD 0).toNat

theorem env_at (xs : List Word) (q : Nat) : BitVec.ofNat 8 (env xs q) = at' xs (q - 1) := by simp [env, at']

theorem env_held {xs : List Word} (q : Nat) : BitVec.ofNat 8 (env xs q % 256) = at' xs (q - 1) := by
  have := CPe.ofNat_mod 8 (env xs q)
  rw [← env_at, ← this]

/-- A sum of a register and something that does not depend on the rest needs a word in the register. -/
theorem bound_of {s : Key → Option Key} {k : Nat} {F : (Key → Nat) → Word} {g : (Key → Nat) → Word} (h : ∀ x z : Key → Nat, F x = BitVec.ofNat 8 (wired s x z k) + g x) : ∃ q, s k = some q := by
  cases hs : s k with
  | some q => exact ⟨q, rfl⟩
  | none =>
    have h0 := (h (fun _ => 0) (fun _ => 0)).symm.trans (h (fun _ => 0) (fun _ => 1))
    simp only [wired, hs] at h0
    have := (BitVec.add_left_inj _).mp h0
    exact absurd this (by decide)

theorem both_bound {s : Key → Option Key} {F : (Key → Nat) → Word} (h : (∀ x z : Key → Nat, F x = BitVec.ofNat 8 (wired s x z 1) + BitVec.ofNat 8 (wired s x z 2)) ∨
    ∀ x z : Key → Nat, F x = BitVec.ofNat 8 (wired s x z 1) * BitVec.ofNat 8 (wired s x z 2)) : (∃ q, s 1 = some q) ∧ ∃ q, s 2 = some q := by
  have key : s 1 = none ∨ s 2 = none → False := by
    intro hn
    rcases h with h | h <;>
      have h0 := (h (fun _ => 1) (fun _ => 0)).symm.trans (h (fun _ => 1) (fun _ => 1)) <;>
      cases h1 : s 1 <;> cases h2 : s 2 <;> simp [wired, h1, h2] at h0 hn <;> exact absurd h0 (by decide)
  constructor
  · cases h1 : s 1 with
    | some q => exact ⟨q, rfl⟩
    | none => exact (key (.inl h1)).elim
  · cases h1 : s 2 with
    | some q => exact ⟨q, rfl⟩
    | none => exact (key (.inr h1)).elim

theorem isData_of {const : Bool} {n q : Nat} (h : lo const ≤ q ∧ q ≤ n) : IsData const n (q - 1) := by
  cases const
  · simp only [lo, Bool.false_eq_true, if_false] at h
    exact ⟨by simp, by omega⟩
  · simp only [lo, if_true] at h
    exact ⟨by simp; omega, by omega⟩

theorem fits_of_can {P : Process} (hP : MildProcess P) {enc : IEnc} {const : Bool} {n : Nat} (hn : 0 < n) {f : List Word → Word}
    (h : CanComputeConsts P.asm (problem P.asm enc const n f) (WIr.wordFn 8 f) peFn 0 instT (wordFields 8 1 n) (.cons 0 wordT .nil) dIn peOut) : Fits const n f := by
  obtain ⟨inst, src, out, hi, hv, _, hF, hO, hfn⟩ := h
  obtain ⟨o, ho1, ho2, _⟩ := hO.once 0 wordT (by simp [Fields.toList])
  have ho : o = 0 ∨ o = 1 := by simpa [peOut, Fields.toList] using ho1
  have hW := feeds_wires hF
  have hb := wires_bound hW
  have hb' : n ≤ if const then 3 else 2 := by cases const <;> simpa [lo] using hb
  refine ⟨hb', ?_⟩
  -- the function, for any words
  have key : ∀ x z : Key → Nat, ∃ inst', Holds 0 instT src x inst inst' ∧ f ((rowOf (wordFields 8 1 n) x).map (WIr.leafWord 8)) =
      outv o inst' (.ofNat 8 (wired (fun k => src [k]) x z 1)) (.ofNat 8 (wired (fun k => src [k]) x z 2)) := by
    intro x z
    obtain ⟨inst', hH⟩ := InM.holds_exists (k0 := 0) inst_wf hi src x
    have := hfn x z _ (fun _ _ => []) (fun _ _ => 0) (fun _ _ => 0) hH (by simp [BoxesCompute, problem, wordIr]) (by simp [BoxesCompute, problem, pe]) o
      (by rcases ho with rfl | rfl <;> simp [peOut, Fields.toList]) 0 ho2
    refine ⟨inst', hH, ?_⟩
    have e1 := fn_out inst' (fun k => src [k]) x z ho
    have e2 := fn_ir n f x
    exact BitVec.eq_of_toNat_eq (e2.symm.trans (this.symm.trans e1))
  -- a word in the first register
  have first : (∀ x z : Key → Nat, f ((rowOf (wordFields 8 1 n) x).map (WIr.leafWord 8)) = BitVec.ofNat 8 (wired (fun k => src [k]) x z 1) + 0) →
      ∃ i k, IsData const n i ∧ ∀ xs, xs.length = n → f xs = at' xs i + k := by
    intro hk
    obtain ⟨q, hq⟩ := bound_of (g := fun _ => 0) hk
    refine ⟨q - 1, 0, isData_of (hW.1 q (.inl hq)), fun xs hxs => ?_⟩
    have := hk (env xs) (fun _ => 0)
    rw [show (rowOf (wordFields 8 1 n) (env xs)).map (WIr.leafWord 8) = xs from CPe.words_env hxs] at this
    rw [this]
    simp only [wired, hq, env_at]
  rcases inst_shape hi with ⟨op, a, b, c, rfl, h1, h2, h3, h4⟩ | ⟨op, a, b, i, j, rfl, h1, h2, h3, h4, h5⟩
  · -- two registers
    have hc : const = false := by
      cases const with
      | false => rfl
      | true =>
        obtain ⟨p, hp1, hp2, _⟩ := hF.once 1 (.bv 0 8) (WIr.fields_mem.mpr ⟨Nat.le_refl _, by omega, rfl⟩)
        rw [rr_paths] at hp1
        have hl : ∀ p t m, (p, t, m) ∈ rawLeaves instT (rr op a b c) → t ≠ wordT → src (0 :: p) ≠ some 1 := by
          intro p t m hp ht he
          rcases feeds_leaf hF hp with h | ⟨_, _, h⟩
          · rw [h] at he; cases he
          · exact ht h
        simp only [List.mem_cons, List.not_mem_nil, or_false] at hp1
        rcases hp1 with rfl | rfl | rfl | rfl | rfl | rfl
        · exact absurd hp2 (hl [1, 0] rrOpT op (by simp [rr_leaves]) (by simp [rrOpT, wordT]))
        · exact absurd hp2 (hl [1, 1] idxT a (by simp [rr_leaves]) (by simp [idxT, wordT]))
        · exact absurd hp2 (hl [1, 2] idxT b (by simp [rr_leaves]) (by simp [idxT, wordT]))
        · exact absurd hp2 (hl [1, 3] idxT c (by simp [rr_leaves]) (by simp [idxT, wordT]))
        · have := (hW.1 1 (.inl hp2)).1
          simp [lo] at this
        · have := (hW.1 1 (.inr hp2)).1
          simp [lo] at this
    subst hc
    have key' : ∀ x z : Key → Nat, f ((rowOf (wordFields 8 1 n) x).map (WIr.leafWord 8)) =
        if o = 0 then (if op == 2 then BitVec.ofNat 8 (wired (fun k => src [k]) x z 1) * BitVec.ofNat 8 (wired (fun k => src [k]) x z 2)
          else BitVec.ofNat 8 (wired (fun k => src [k]) x z 1) + BitVec.ofNat 8 (wired (fun k => src [k]) x z 2)) else BitVec.ofNat 8 (wired (fun k => src [k]) x z 1) := by
      intro x z
      obtain ⟨inst', hH, e⟩ := key x z
      obtain ⟨_, _, _, rfl⟩ := holds_rr hF hH
      exact e
    rcases ho with rfl | rfl
    · right; right; left
      simp only [if_true] at key'
      have hboth := both_bound (s := fun k => src [k]) (F := fun x => f ((rowOf (wordFields 8 1 n) x).map (WIr.leafWord 8))) (by
        by_cases hop : op == 2
        · right; intro x z; simpa [hop] using key' x z
        · left; intro x z; simpa [hop] using key' x z)
      obtain ⟨⟨q1, hq1⟩, q2, hq2⟩ := hboth
      have r1 := hW.1 q1 (.inl hq1)
      have r2 := hW.1 q2 (.inr hq2)
      have hne : q1 ≠ q2 := fun e => hW.2.2 q1 hq1 (e ▸ hq2)
      simp only [lo, Bool.false_eq_true, if_false] at r1 r2 hb'
      have nat_case : ∀ a b : Nat, 1 ≤ a ∧ a ≤ n → 1 ≤ b ∧ b ≤ n → a ≠ b → (a = 1 ∧ b = 2 ∨ a = 2 ∧ b = 1) ∧ n = 2 := by
        intro a b h1 h2 h3
        omega
      obtain ⟨hq, rfl⟩ := nat_case q1 q2 r1 r2 hne
      refine ⟨rfl, rfl, ?_⟩
      have e : ∀ x y, f [x, y] = if op == 2 then x * y else x + y := by
        intro x y
        have := key' (env [x, y]) (fun _ => 0)
        rw [show (rowOf (wordFields 8 1 2) (env [x, y])).map (WIr.leafWord 8) = [x, y] from CPe.words_env rfl] at this
        rw [this]
        simp only [wired, hq1, hq2]
        rcases hq with ⟨e1, e2⟩ | ⟨e1, e2⟩ <;> rw [e1, e2, env_at, env_at] <;> simp only [at']
        · rfl
        · show (if op == 2 then y * x else y + x) = _
          rw [BitVec.mul_comm, BitVec.add_comm]
      by_cases hop : op == 2
      · right; intro x y; simpa [hop] using e x y
      · left; intro x y; simpa [hop] using e x y
    · right; left
      refine first (fun x z => ?_)
      rw [key' x z]
      simp
  · -- an immediate
    have key' : ∀ x z : Key → Nat, f ((rowOf (wordFields 8 1 n) x).map (WIr.leafWord 8)) =
        if o = 0 then (if op == 3 then BitVec.ofNat 8 (held src x [0, 0, 4] j) else BitVec.ofNat 8 (wired (fun k => src [k]) x z 1) + BitVec.ofNat 8 (held src x [0, 0, 4] j))
          else BitVec.ofNat 8 (wired (fun k => src [k]) x z 1) := by
      intro x z
      obtain ⟨inst', hH, e⟩ := key x z
      obtain ⟨_, _, _, rfl⟩ := holds_ri hF hH
      exact e
    rcases ho with rfl | rfl
    · simp only [if_true] at key'
      have himm := feeds_leaf hF (p := [0, 4]) (t := wordT) (m := j) (by simp [ri_leaves])
      by_cases hop : op == 3
      · simp only [hop, if_true] at key'
        rcases himm with hs | ⟨hs, hc, _⟩
        · left
          refine ⟨.ofNat 8 j, fun xs hxs => ?_⟩
          have := key' (env xs) (fun _ => 0)
          rw [show (rowOf (wordFields 8 1 n) (env xs)).map (WIr.leafWord 8) = xs from CPe.words_env hxs] at this
          rw [this]
          simp only [held, hs]
        · right; right; right
          refine ⟨hc, .inl fun xs hxs => ?_⟩
          have := key' (env xs) (fun _ => 0)
          rw [show (rowOf (wordFields 8 1 n) (env xs)).map (WIr.leafWord 8) = xs from CPe.words_env hxs] at this
          rw [this]
          simp only [held, hs, env_held]
      · simp only [hop, Bool.false_eq_true, if_false] at key'
        obtain ⟨q, hq⟩ := bound_of (s := fun k => src [k]) (k := 1) (F := fun x => f ((rowOf (wordFields 8 1 n) x).map (WIr.leafWord 8)))
          (g := fun x => BitVec.ofNat 8 (held src x [0, 0, 4] j)) key'
        have hd := isData_of (hW.1 q (.inl hq))
        rcases himm with hs | ⟨hs, hc, _⟩
        · right; left
          refine ⟨q - 1, .ofNat 8 j, hd, fun xs hxs => ?_⟩
          have := key' (env xs) (fun _ => 0)
          rw [show (rowOf (wordFields 8 1 n) (env xs)).map (WIr.leafWord 8) = xs from CPe.words_env hxs] at this
          rw [this]
          simp only [held, hs, wired, hq, env_at]
        · right; right; right
          refine ⟨hc, .inr ⟨q - 1, hd, fun xs hxs => ?_⟩⟩
          have := key' (env xs) (fun _ => 0)
          rw [show (rowOf (wordFields 8 1 n) (env xs)).map (WIr.leafWord 8) = xs from CPe.words_env hxs] at this
          rw [this]
          simp only [held, hs, env_held, wired, hq, env_at]
    · right; left
      refine first (fun x z => ?_)
      rw [key' x z]
      simp

/-- The registers are given the words `s0` and `s1`, the place `pc` the constant. -/
def srcOf (s0 s1 : Option Nat) (pc : Option RPath) : RPath → Option Key := fun p => if p = [1] then s0 else if p = [2] then s1 else if some p = pc then some 1 else none

theorem feeds_of {A : Ty → Except Err AsmObj} {enc : IEnc} {const : Bool} {n : Nat} (hn : 0 < n) {f : List Word → Word} {inst : RVal} {s0 s1 : Option Nat} (hW : Wires (lo const) n s0 s1)
    {pc : Option RPath} (hpc : const = true → ∃ p, pc = some (0 :: p) ∧ ∃ m, (p, wordT, m) ∈ rawLeaves instT inst) (hno : const = false → pc = none)
    (hty : ∀ p t m, (p, t, m) ∈ rawLeaves instT inst → pc = some (0 :: p) → t = wordT) (hne : ∀ p t m, (p, t, m) ∈ rawLeaves instT inst → p ≠ []) :
    Feeds (problem A enc const n f) 0 instT (wordFields 8 1 n) dIn inst (srcOf s0 s1 pc) := by
  have s1' : srcOf s0 s1 pc [1] = s0 := by simp [srcOf]
  have s2' : srcOf s0 s1 pc [2] = s1 := by simp [srcOf]
  have sl : ∀ p q, srcOf s0 s1 pc (0 :: p) = some q ↔ pc = some (0 :: p) ∧ q = 1 := by
    intro p q
    have h1 : ((0 : Nat) :: p) ≠ [1] := by simp
    have h2 : ((0 : Nat) :: p) ≠ [2] := by simp
    simp only [srcOf, h1, h2, if_false]
    split
    · next h => simp [← h, eq_comm]
    · next h => simp; intro e; exact absurd e.symm h
  have hlo : ∀ q : Nat, 1 ≤ q → q ≤ n → lo const ≤ q ∨ const = true ∧ q = 1 := by
    intro q h1 h2
    cases const
    · left; simpa [lo] using h1
    · simp only [lo, if_true, true_and]; omega
  have hlo' : ∀ q : Nat, lo const ≤ q → q ≤ n → (q, Ty.bv 0 8) ∈ (wordFields 8 1 n).toList ∧ ¬ (const = true ∧ q = 1) := by
    intro q h1 h2
    cases const
    · simp only [lo, Bool.false_eq_true, if_false] at h1
      exact ⟨WIr.fields_mem.mpr ⟨h1, by omega, rfl⟩, by simp⟩
    · simp only [lo, if_true] at h1
      exact ⟨WIr.fields_mem.mpr ⟨by omega, by omega, rfl⟩, by simp; omega⟩
  have cst : ∀ p, pc = some p → const = true := by
    intro p h
    cases const with
    | true => rfl
    | false => rw [hno rfl] at h; cases h
  refine ⟨?_, ?_, ?_⟩
  · intro p t m q hp hq
    obtain ⟨h1, rfl⟩ := (sl p q).mp hq
    have ht := hty p t m hp h1
    subst ht
    exact ⟨WIr.fields_mem.mpr ⟨Nat.le_refl _, by omega, rfl⟩, const_mem.mpr ⟨cst _ h1, rfl⟩, by simp [problem]⟩
  · intro k t q hk hq
    have hr : lo const ≤ q ∧ q ≤ n := by
      simp only [dIn, Fields.toList, List.mem_cons, List.not_mem_nil, or_false, Prod.mk.injEq] at hk
      rcases hk with ⟨rfl, _⟩ | ⟨rfl, _⟩
      · rw [s1'] at hq; exact hW.1 q (.inl hq)
      · rw [s2'] at hq; exact hW.1 q (.inr hq)
    have ht : t = .bv 0 8 := by
      simp only [dIn, Fields.toList, List.mem_cons, List.not_mem_nil, or_false, Prod.mk.injEq] at hk
      rcases hk with ⟨_, rfl⟩ | ⟨_, rfl⟩ <;> rfl
    obtain ⟨h1, h2⟩ := hlo' q hr.1 hr.2
    exact ⟨ht ▸ h1, fun h => h2 (const_mem.mp h)⟩
  · intro q t hq
    obtain ⟨a1, a2, _⟩ := WIr.fields_mem.mp hq
    have a2' : q ≤ n := Nat.le_of_lt_succ (by rw [Nat.add_comm] at a2; exact a2)
    have paths : ∀ p', p' ∈ inputPaths 0 instT dIn inst → (∃ p t m, p' = 0 :: p ∧ (p, t, m) ∈ rawLeaves instT inst) ∨ p' = [1] ∨ p' = [2] := by
      intro p' h
      simp only [inputPaths, List.mem_append, List.mem_map, dIn, Fields.toList, List.map_cons, List.map_nil, List.mem_cons, List.not_mem_nil, or_false] at h
      rcases h with ⟨⟨l, t, m⟩, hl, rfl⟩ | rfl | rfl
      · exact .inl ⟨l, t, m, rfl, hl⟩
      · exact .inr (.inl rfl)
      · exact .inr (.inr rfl)
    rcases hlo q a1 a2' with hq1 | ⟨hc, rfl⟩
    · have hnc := (hlo' q hq1 a2').2
      have notleaf : ∀ p, srcOf s0 s1 pc (0 :: p) ≠ some q := by
        intro p h
        obtain ⟨h1, h2⟩ := (sl p q).mp h
        exact hnc ⟨cst _ h1, h2⟩
      rcases hW.2.1 q hq1 a2' with h | h
      · refine ⟨[1], by simp [inputPaths, dIn, Fields.toList], s1'.trans h, ?_⟩
        intro p' hp' hs
        rcases paths p' hp' with ⟨p, _, _, rfl, _⟩ | rfl | rfl
        · exact absurd hs (notleaf p)
        · rfl
        · exact absurd (s2'.symm.trans hs) (hW.2.2 q h)
      · refine ⟨[2], by simp [inputPaths, dIn, Fields.toList], s2'.trans h, ?_⟩
        intro p' hp' hs
        rcases paths p' hp' with ⟨p, _, _, rfl, _⟩ | rfl | rfl
        · exact absurd hs (notleaf p)
        · exact absurd h (hW.2.2 q (s1'.symm.trans hs))
        · rfl
    · obtain ⟨p, hp, m, hm⟩ := hpc hc
      refine ⟨0 :: p, ?_, (sl p 1).mpr ⟨hp, rfl⟩, ?_⟩
      · simp only [inputPaths, List.mem_append, List.mem_map]
        exact .inl ⟨_, hm, rfl⟩
      · intro p' hp' hs
        have hno1 : ∀ s : Option Nat, (s = s0 ∨ s = s1) → s ≠ some 1 := by
          rintro s hs rfl
          have := (hW.1 1 (by rcases hs with h | h; exact .inl h.symm; exact .inr h.symm)).1
          rw [hc] at this
          exact absurd this (by decide)
        rcases paths p' hp' with ⟨p2, _, _, rfl, _⟩ | rfl | rfl
        · have := ((sl p2 1).mp hs).1
          rw [hp] at this
          exact (Option.some.inj this).symm
        · exact absurd (s1'.symm.trans hs) (hno1 _ (.inl rfl))
        · exact absurd (s2'.symm.trans hs) (hno1 _ (.inr rfl))

/-- An instruction and places for the words that give the function. -/
theorem can_of {P : Process} {enc : IEnc} {const : Bool} {n : Nat} {f : List Word → Word} {inst : RVal} {src : RPath → Option Key} (hi : RHas instT inst)
    (hv : isValidAV P.asm (mkAV instT (rawCode instT inst)) = .ok true) (hF : Feeds (problem P.asm enc const n f) 0 instT (wordFields 8 1 n) dIn inst src)
    (h : ∀ (x z : Key → Nat) (inst' : RVal), Holds 0 instT src x inst inst' → f ((rowOf (wordFields 8 1 n) x).map (WIr.leafWord 8)) =
      res inst' (.ofNat 8 (wired (fun k => src [k]) x z 1)) (.ofNat 8 (wired (fun k => src [k]) x z 2))) :
    CanComputeConsts P.asm (problem P.asm enc const n f) (WIr.wordFn 8 f) peFn 0 instT (wordFields 8 1 n) (.cons 0 wordT .nil) dIn peOut := by
  refine ⟨inst, src, fun k => if k = 0 then some 0 else none, hi, hv, ?_, hF, ⟨?_, ?_⟩, ?_⟩
  · intro p t m hp cs hcs
    simp [problem] at hcs
  · intro k t q hk hq
    simp only [peOut, Fields.toList, List.mem_cons, List.not_mem_nil, or_false, Prod.mk.injEq] at hk
    rcases hk with ⟨rfl, rfl⟩ | ⟨rfl, rfl⟩
    · simp at hq
      subst hq
      simp [Fields.toList]
    · simp at hq
  · intro q t hq
    simp only [Fields.toList, List.mem_singleton, Prod.mk.injEq] at hq
    obtain ⟨rfl, rfl⟩ := hq
    refine ⟨0, by simp [peOut, Fields.toList], by simp, ?_⟩
    intro k' hk' hs
    by_contra hne
    simp [hne] at hs
  · intro x z inst' F ρi ρa hH _ _ k hk q hq
    have hk0 : k = 0 := by
      by_contra hne
      simp [hne] at hq
    subst hk0
    simp only [if_true, Option.some.injEq] at hq
    subst hq
    have e1 := fn_out inst' (fun k => src [k]) x z (.inl rfl)
    have e2 := fn_ir n f x
    refine Eq.trans e1 (Eq.trans ?_ e2.symm)
    rw [h x z inst' hH]
    rfl

theorem words_at {n : Nat} {x : Key → Nat} {j : Nat} (h : j < n) : at' ((rowOf (wordFields 8 1 n) x).map (WIr.leafWord 8)) j = .ofNat 8 (x (j + 1)) := CPe.words_get h

/-- With an immediate: the constant goes to `imm0` or `imm1`. -/
theorem can_ri {P : Process} (hP : MildProcess P) {enc : IEnc} {const : Bool} {n : Nat} (hn : 0 < n) {f : List Word → Word} {s0 s1 : Option Nat} (hW : Wires (lo const) n s0 s1)
    (op : Nat) (hop : op = 3 ∨ op = 4) (j : Word) (use : Bool) (huse : use = true → const = true)
    (h : ∀ (x z : Key → Nat), f ((rowOf (wordFields 8 1 n) x).map (WIr.leafWord 8)) =
      let imm := if use then .ofNat 8 (x 1) else j
      if op == 3 then imm else BitVec.ofNat 8 (wired (fun _ => s0) x z 1) + imm) :
    CanComputeConsts P.asm (problem P.asm enc const n f) (WIr.wordFn 8 f) peFn 0 instT (wordFields 8 1 n) (.cons 0 wordT .nil) dIn peOut := by
  let pc : Option RPath := if const then (if use then some [0, 0, 4] else some [0, 0, 3]) else none
  have ho : op < 8 := by omega
  have hi : RHas instT (ri op 0 0 0 j.toNat) := ri_has ho (by decide) (by decide) (by decide) j.isLt
  have hF : Feeds (problem P.asm enc const n f) 0 instT (wordFields 8 1 n) dIn (ri op 0 0 0 j.toNat) (srcOf s0 s1 pc) := by
    refine feeds_of hn hW ?_ ?_ ?_ ?_
    · intro hc
      cases use
      · exact ⟨[0, 3], by simp [pc, hc], 0, by simp [ri_leaves]⟩
      · exact ⟨[0, 4], by simp [pc, hc], j.toNat, by simp [ri_leaves]⟩
    · intro hc
      simp [pc, hc]
    · intro p t m hp he
      rw [ri_leaves] at hp
      simp only [List.mem_cons, List.not_mem_nil, or_false, Prod.mk.injEq] at hp
      rcases hp with ⟨rfl, _⟩ | ⟨rfl, _⟩ | ⟨rfl, _⟩ | ⟨_, rfl, _⟩ | ⟨_, rfl, _⟩
      · cases const <;> cases use <;> simp [pc] at he
      · cases const <;> cases use <;> simp [pc] at he
      · cases const <;> cases use <;> simp [pc] at he
      · rfl
      · rfl
    · intro p t m hp
      rw [ri_leaves] at hp
      simp only [List.mem_cons, List.not_mem_nil, or_false, Prod.mk.injEq] at hp
      rcases hp with ⟨rfl, _⟩ | ⟨rfl, _⟩ | ⟨rfl, _⟩ | ⟨rfl, _⟩ | ⟨rfl, _⟩ <;> simp
  refine can_of hi ((ri_valid hP ho (by decide) (by decide) (by decide) j.isLt).mpr hop) hF ?_
  intro x z inst' hH
  obtain ⟨_, _, _, rfl⟩ := holds_ri hF hH
  have himm : BitVec.ofNat 8 (held (srcOf s0 s1 pc) x [0, 0, 4] j.toNat) = if use then .ofNat 8 (x 1) else j := by
    cases use
    · have : srcOf s0 s1 pc [0, 0, 4] = none := by cases const <;> simp [srcOf, pc]
      simp [held, this]
    · have : srcOf s0 s1 pc [0, 0, 4] = some 1 := by simp [srcOf, pc, huse rfl]
      simp only [held, this, if_true]
      exact CPe.ofNat_mod 8 (x 1)
  rw [h x z]
  simp only [ri, res, himm]
  have e1 : wired (fun k => srcOf s0 s1 pc [k]) x z 1 = wired (fun _ => s0) x z 1 := by simp [wired, srcOf]
  rw [e1]

theorem can_rr {P : Process} (hP : MildProcess P) {enc : IEnc} {f : List Word → Word} (op : Nat) (hop : op = 1 ∨ op = 2) (h : ∀ x y, f [x, y] = if op == 2 then x * y else x + y) :
    CanComputeConsts P.asm (problem P.asm enc false 2 f) (WIr.wordFn 8 f) peFn 0 instT (wordFields 8 1 2) (.cons 0 wordT .nil) dIn peOut := by
  have ho : op < 4 := by omega
  have hi : RHas instT (rr op 0 0 0) := rr_has ho (by decide) (by decide) (by decide)
  have hW : Wires (lo false) 2 (some 1) (some 2) := by
    refine ⟨?_, ?_, ?_⟩
    · intro q hq
      simp [lo] at hq ⊢; omega
    · intro q h1 h2
      simp [lo] at h1 ⊢; omega
    · intro q hq
      simp at hq ⊢; omega
  have hF : Feeds (problem P.asm enc false 2 f) 0 instT (wordFields 8 1 2) dIn (rr op 0 0 0) (srcOf (some 1) (some 2) none) := by
    refine feeds_of (by decide) hW (by simp) (by simp) (by simp) ?_
    intro p t m hp
    rw [rr_leaves] at hp
    simp only [List.mem_cons, List.not_mem_nil, or_false, Prod.mk.injEq] at hp
    rcases hp with ⟨rfl, _⟩ | ⟨rfl, _⟩ | ⟨rfl, _⟩ | ⟨rfl, _⟩ <;> simp
  refine can_of hi ((rr_valid hP ho (by decide) (by decide) (by decide)).mpr hop) hF ?_
  intro x z inst' hH
  obtain ⟨_, _, _, rfl⟩ := holds_rr hF hH
  have e : (rowOf (wordFields 8 1 2) x).map (WIr.leafWord 8) = [.ofNat 8 (x 1), .ofNat 8 (x 2)] := by
    simp only [wordFields, rowOf, List.map_cons, List.map_nil, WIr.leafWord, width]
    rw [CPe.ofNat_mod, CPe.ofNat_mod]
  rw [e, h]
  simp [rr, res, wired, srcOf]

theorem can_of_fits {P : Process} (hP : MildProcess P) {enc : IEnc} {const : Bool} {n : Nat} (hn : 0 < n) {f : List Word → Word} (h : Fits const n f) :
    CanComputeConsts P.asm (problem P.asm enc const n f) (WIr.wordFn 8 f) peFn 0 instT (wordFields 8 1 n) (.cons 0 wordT .nil) dIn peOut := by
  obtain ⟨hb, h⟩ := h
  have hb' : n ≤ lo const + 1 := by cases const <;> simpa [lo] using hb
  have hl := fun x => CPe.words_length 8 x n 1
  have data : ∀ i, IsData const n i → lo const ≤ i + 1 ∧ i + 1 ≤ n ∧ i < n := by
    intro i hi
    obtain ⟨h1, h2⟩ := hi
    cases const
    · simp [lo]; omega
    · simp only [lo, if_true] at h1 ⊢; omega
  rcases h with ⟨k, hf⟩ | ⟨i, k, hi, hf⟩ | ⟨rfl, rfl, hf⟩ | ⟨hc, hf | ⟨i, hi, hf⟩⟩
  · obtain ⟨s0, s1, hW⟩ := wires_exist hb'
    exact can_ri hP hn hW 3 (.inl rfl) k false (by simp) (fun x z => by simp [hf _ (hl x)])
  · obtain ⟨h1, h2, h3⟩ := data i hi
    obtain ⟨s1, hW⟩ := wires_with hb' h1 h2
    exact can_ri hP hn hW 4 (.inr rfl) k false (by simp) (fun x z => by simp [hf _ (hl x), words_at h3, wired])
  · rcases hf with hf | hf
    · exact can_rr hP 1 (.inl rfl) (fun x y => by simp [hf])
    · exact can_rr hP 2 (.inr rfl) (fun x y => by simp [hf])
  · obtain ⟨s0, s1, hW⟩ := wires_exist hb'
    exact can_ri hP hn hW 3 (.inl rfl) 0 true (fun _ => hc) (fun x z => by simp [hf _ (hl x), words_at hn])
  · obtain ⟨h1, h2, h3⟩ := data i hi
    obtain ⟨s1, hW⟩ := wires_with hb' h1 h2
    exact can_ri hP hn hW 4 (.inr rfl) 0 true (fun _ => hc) (fun x z => by simp [hf _ (hl x), words_at h3, words_at hn, wired])

/-- Which functions are computed. -/
theorem can_iff {P : Process} (hP : MildProcess P) {enc : IEnc} {const : Bool} {n : Nat} (hn : 0 < n) {f : List Word → Word} :
    CanComputeConsts P.asm (problem P.asm enc const n f) (WIr.wordFn 8 f) peFn 0 instT (wordFields 8 1 n) (.cons 0 wordT .nil) dIn peOut ↔ Fits const n f :=
  ⟨fits_of_can hP hn, can_of_fits hP hn⟩

/-- C88: with either encoding of the index variables and any sound and complete solver, an IR instruction that returns a function of `n` words, of which the first may be `Const`, is mapped to the
architecture, by a correct rule, if and only if one instruction computes the function. Otherwise the result is `None`. -/
theorem C88_mapped (P : Process) (hP : MildProcess P) (enc : IEnc) (const : Bool) (n : Nat) (hn : 0 < n) (f : List Word → Word)
    (solve : (MAsg Nat → Prop) → Option (MAsg Nat)) (hsat : ∀ φ a, solve φ = some a → φ a) (hcomp : ∀ φ a, φ a → ∃ a', solve φ = some a') (a0 : MAsg Nat) :
    (Fits const n f → ∃ r, mapSolve P.asm (problem P.asm enc const n f) solve a0 = .ok (some r) ∧ IsMapping P.asm (problem P.asm enc const n f) r ∧
      RuleRight P (wordIr 8 n f) (pe P.asm) r) ∧
    (¬ Fits const n f → mapSolve P.asm (problem P.asm enc const n f) solve a0 = .ok none) := by
  have key := C33_instruction_consts P (problem P.asm enc const n f) (WIr.wordFn 8 f) peFn (fun _ => [1]) 0 instT _ _ _ _ (const_problem P enc const n f) rfl rfl
    (setup P hn f) (pe_total P) ((known hP).leaves (known_leaves hP)) solve hsat hcomp a0
  rw [can_iff hP hn] at key
  exact right_of (setup P hn f) key

theorem boxes (P : Process) : TotalBoxes (pe P.asm) (fun _ => [1]) := by
  intro c fs _ d bb _
  have : ((pe P.asm).run d bb).2 = [] := by
    show (match peCall P.asm d with | .ok l => (l, []) | .error _ => ([], [])).2 = []
    cases peCall P.asm d <;> rfl
  refine ⟨by simp only [this]; rfl, fun b k h => ?_⟩
  cases h

/-- Valid instructions stay so when given other constants. -/
theorem ops_kept {P : Process} (hP : MildProcess P) {enc : IEnc} {const : Bool} {n : Nat} {f : List Word → Word} :
    ∀ inst inst' src x, RHas instT inst → isValidAV P.asm (mkAV instT (rawCode instT inst)) = .ok true → Feeds (problem P.asm enc const n f) 0 instT (wordFields 8 1 n) dIn inst src →
      Holds 0 instT src x inst inst' → isValidAV P.asm (mkAV instT (rawCode instT inst')) = .ok true := by
  intro inst inst' src x hi hv hF hH
  rcases inst_shape hi with ⟨op, a, b, c, rfl, h1, h2, h3, h4⟩ | ⟨op, a, b, i, j, rfl, h1, h2, h3, h4, h5⟩
  · obtain ⟨a', b', c', rfl⟩ := holds_rr hF hH
    rcases inst_shape hH.1 with ⟨_, _, _, _, e, g1, g2, g3, g4⟩ | ⟨_, _, _, _, _, e, _⟩
    · cases e
      rw [rr_valid hP h1 h2 h3 h4] at hv
      rwa [rr_valid hP g1 g2 g3 g4]
    · cases e
  · obtain ⟨a', b', i', rfl⟩ := holds_ri hF hH
    rcases inst_shape hH.1 with ⟨_, _, _, _, e, _⟩ | ⟨op2, a2, b2, i2, j2, e, g1, g2, g3, g4, g5⟩
    · cases e
    · have e' := e
      simp only [ri, RVal.sum.injEq, RVal.prod.injEq, List.cons.injEq, RVal.leaf.injEq, true_and, and_true] at e'
      rw [ri_valid hP h1 h2 h3 h4 h5] at hv
      rw [e, ri_valid hP g1 g2 g3 g4 g5, ← e'.1]
      exact hv

/-- C88: the same with `simple_formula=True`, as the test has it, for functions of words that are not `Const`. -/
theorem C88_mapped_simple (P : Process) (hP : MildProcess P) (enc : IEnc) (n : Nat) (hn : 0 < n) (f : List Word → Word)
    (solve : (SAsg Nat → Prop) → Option (SAsg Nat)) (hsat : ∀ φ a, solve φ = some a → φ a) (hcomp : ∀ φ a, φ a → ∃ a', solve φ = some a') (a0 : SAsg Nat) :
    (Fits false n f → ∃ r, simpleSolve P.asm (problem P.asm enc false n f) solve a0 = .ok (some r) ∧ IsMapping P.asm (problem P.asm enc false n f) r ∧
      RuleRight P (wordIr 8 n f) (pe P.asm) r) ∧
    (¬ Fits false n f → simpleSolve P.asm (problem P.asm enc false n f) solve a0 = .ok none) := by
  have key := C55_instruction_consts P (problem P.asm enc false n f) (WIr.wordFn 8 f) peFn (fun _ => [1]) 0 instT _ _ _ _ (const_problem P enc false n f)
    (setup P hn f) (pe_total P) (boxes P) ((known hP).leaves (known_leaves hP))
    (by
      intro q c ms h
      simp [problem] at h)
    (by
      intro q t hq h
      simp [problem] at h)
    (ops_kept hP)
    solve hsat hcomp a0
  rw [can_iff hP hn] at key
  exact right_of (setup P hn f) key

end Peak.BPe
