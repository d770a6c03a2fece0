import Verif.Props.BasicPe
import Verif.Props.SimpleConsts
import Verif.Props.RuleRight
/-!
# C88: functions of a constant, with `simple_formula=True`
-/

namespace Peak.BPe
open Peak Peak.Spec

/-- What an instruction and a wiring compute. -/
theorem computed {P : Process} {enc : IEnc} {const : Bool} {n : Nat} {f : List Word → Word} {inst : RVal} {src : RPath → Option Key} {out : Key → Option Key} (hi : RHas instT inst)
    (h : ComputesConsts (problem P.asm enc const n f) (WIr.wordFn 8 f) peFn 0 instT (wordFields 8 1 n) (.cons 0 wordT .nil) dIn peOut inst src out) :
    ∃ o, ∀ x z : Key → Nat, ∃ inst', Holds 0 instT src x inst inst' ∧ f ((rowOf (wordFields 8 1 n) x).map (WIr.leafWord 8)) =
      outv o inst' (.ofNat 8 (wired (fun k => src [k]) x z 1)) (.ofNat 8 (wired (fun k => src [k]) x z 2)) := by
  obtain ⟨hF, hO, hfn⟩ := h
  obtain ⟨o, ho1, ho2, _⟩ := hO.once 0 wordT (by simp [Fields.toList])
  have ho : o = 0 ∨ o = 1 := by simpa [peOut, Fields.toList] using ho1
  refine ⟨o, fun x z => ?_⟩
  obtain ⟨inst', hH⟩ := InM.holds_exists (k0 := 0) inst_wf hi src x
  have := hfn x z _ (fun _ _ => []) (fun _ _ => 0) (fun _ _ => 0) hH (by simp [BoxesCompute, problem, wordIr]) (by simp [BoxesCompute, problem, pe]) o
    (by rcases ho with rfl | rfl <;> simp [peOut, Fields.toList]) 0 ho2
  refine ⟨inst', hH, ?_⟩
  have e1 := fn_out inst' (fun k => src [k]) x z ho
  have e2 := fn_ir n f x
  exact BitVec.eq_of_toNat_eq (e2.symm.trans (this.symm.trans e1))

/-- A constant needs an immediate. -/
theorem ri_of_const {P : Process} {enc : IEnc} {n : Nat} (hn : 0 < n) {f : List Word → Word} {inst : RVal} {src : RPath → Option Key} (hi : RHas instT inst)
    (hF : Feeds (problem P.asm enc true n f) 0 instT (wordFields 8 1 n) dIn inst src) :
    ∃ op a b i j, inst = ri op a b i j ∧ op < 8 ∧ a < 4 ∧ b < 4 ∧ i < 256 ∧ j < 256 := by
  have hW := feeds_wires hF
  rcases inst_shape hi with ⟨op, a, b, c, rfl, h1, h2, h3, h4⟩ | h
  · exfalso
    obtain ⟨p, hp1, hp2, _⟩ := hF.once 1 (.bv 0 8) (WIr.fields_mem.mpr ⟨Nat.le_refl _, by omega, rfl⟩)
    rw [rr_paths] at hp1
    have hl : ∀ p t m, (p, t, m) ∈ rawLeaves instT (rr op a b c) → t ≠ wordT → src (0 :: p) ≠ some 1 := by
      intro p t m hp ht he
      rcases feeds_leaf hF hp with h | ⟨_, _, h⟩
      · rw [h] at he; cases he
      · exact ht h
    simp only [List.mem_cons, List.not_mem_nil, or_false] at hp1
    rcases hp1 with rfl | rfl | rfl | rfl | rfl | rfl
    · exact absurd hp2 (hl [1, 0] rrOpT op (by simp [rr_leaves]) (by simp [rrOpT, wordT]))
    · exact absurd hp2 (hl [1, 1] idxT a (by simp [rr_leaves]) (by simp [idxT, wordT]))
    · exact absurd hp2 (hl [1, 2] idxT b (by simp [rr_leaves]) (by simp [idxT, wordT]))
    · exact absurd hp2 (hl [1, 3] idxT c (by simp [rr_leaves]) (by simp [idxT, wordT]))
    · have := (hW.1 1 (.inl hp2)).1
      simp [lo] at this
    · have := (hW.1 1 (.inr hp2)).1
      simp [lo] at this
  · exact h

/-- A constant that is used is in the immediate that the architecture reads. -/
theorem imm_of_uses {P : Process} {enc : IEnc} {n : Nat} {f : List Word → Word} (hu : Uses n f) {op a b i j : Nat} {src : RPath → Option Key}
    {out : Key → Option Key} (hi : RHas instT (ri op a b i j))
    (h : ComputesConsts (problem P.asm enc true n f) (WIr.wordFn 8 f) peFn 0 instT (wordFields 8 1 n) (.cons 0 wordT .nil) dIn peOut (ri op a b i j) src out) : src [0, 0, 4] = some 1 := by
  obtain ⟨c, c', xs, hl, hne⟩ := hu
  rcases feeds_leaf h.1 (p := [0, 4]) (t := wordT) (m := j) (by simp [ri_leaves]) with hs | ⟨hs, _⟩
  · exfalso
    obtain ⟨o, ho⟩ := computed hi h
    have hW := feeds_wires h.1
    have e : ∀ k : Nat, k = 1 ∨ k = 2 → wired (fun k => src [k]) (env (c :: xs)) (fun _ => 0) k = wired (fun k => src [k]) (env (c' :: xs)) (fun _ => 0) k := by
      intro k hk
      simp only [wired]
      cases hq : src [k] with
      | none => rfl
      | some q =>
        have : lo true ≤ q := by
          rcases hk with rfl | rfl
          · exact (hW.1 q (.inl hq)).1
          · exact (hW.1 q (.inr hq)).1
        have nat_case : ∀ q : Nat, 2 ≤ q → env (c :: xs) q = env (c' :: xs) q := by
          intro q hq
          obtain ⟨q, rfl⟩ : ∃ m, q = m + 2 := ⟨q - 2, by omega⟩
          simp [env]
        exact nat_case q (by simpa [lo] using this)
    obtain ⟨i1, hH1, e1⟩ := ho (env (c :: xs)) (fun _ => 0)
    obtain ⟨i2, hH2, e2⟩ := ho (env (c' :: xs)) (fun _ => 0)
    obtain ⟨_, _, _, rfl⟩ := holds_ri h.1 hH1
    obtain ⟨_, _, _, rfl⟩ := holds_ri h.1 hH2
    rw [show (rowOf (wordFields 8 1 n) (env (c :: xs))).map (WIr.leafWord 8) = c :: xs from CPe.words_env hl, e 1 (.inl rfl), e 2 (.inr rfl)] at e1
    rw [show (rowOf (wordFields 8 1 n) (env (c' :: xs))).map (WIr.leafWord 8) = c' :: xs from CPe.words_env hl] at e2
    refine hne (e1.trans (Eq.trans ?_ e2.symm))
    simp only [outv, held, hs, ri, res]
  · exact hs

/-- The word fields of the instruction. -/
theorem could_hold {P : Process} {enc : IEnc} {n : Nat} {f : List Word → Word} {p : RPath} (h : CouldHold (problem P.asm enc true n f) p) : p = [0, 0, 3] ∨ p = [0, 0, 4] := by
  obtain ⟨⟨c, hc, hp⟩, q, t, _, hq, ht⟩ := h
  have hc : c = [0] := by simpa [problem] using hc
  subst hc
  have hq : (q, t) ∈ leafTypes (.prod 8 (wordFields 8 1 n)) [] := hq
  have et : t = wordT := by
    simp only [leafTypes, InM.flat_types (WIr.fields_flat 8 1 n), List.mem_map, Prod.mk.injEq] at hq
    obtain ⟨⟨k, u⟩, hk, _, rfl⟩ := hq
    exact (WIr.fields_mem.mp hk).2.2
  subst et
  have ht : (p, wordT) ∈ leafTypes (.prod 86 peIn) [] := ht
  simp [leafTypes, leafTypesF, peIn, instT, opts, riT, rrT, riOpT, rrOpT, idxT, wordT] at ht
  rcases ht with rfl | rfl | rfl | rfl
  · exact .inl rfl
  · exact .inr rfl
  · simp at hp
  · simp at hp

/-- The inputs with a register-immediate instruction. -/
def inp (op a b i j x y : Nat) : RVal := .prod [ri op a b i j, .leaf x, .leaf y]

theorem inp_leaves (op a b i j x y : Nat) : rawLeaves (.prod 86 peIn) (inp op a b i j x y) =
    [([0, 0, 0], riOpT, op), ([0, 0, 1], idxT, a), ([0, 0, 2], idxT, b), ([0, 0, 3], wordT, i), ([0, 0, 4], wordT, j), ([1], wordT, x), ([2], wordT, y)] := by
  simp only [inp, peIn, rawLeaves, rawLeavesAll, ri_leaves]
  simp [wordT, rawLeaves]

theorem in_shape {v : RVal} (h : RHas (.prod 86 peIn) v) : ∃ inst x y, v = .prod [inst, .leaf x, .leaf y] ∧ RHas instT inst ∧ x < 256 ∧ y < 256 := by
  match v, h with
  | .prod [v0, v1, v2], ⟨h0, h1, h2, _⟩ =>
    obtain ⟨x, rfl, hx⟩ := SPe.leaf_shape (.inl ⟨_, _, rfl⟩) h1
    obtain ⟨y, rfl, hy⟩ := SPe.leaf_shape (.inl ⟨_, _, rfl⟩) h2
    exact ⟨v0, x, y, rfl, h0, hx, hy⟩

theorem inp_has {op a b i j x y : Nat} (ho : op < 8) (ha : a < 4) (hb : b < 4) (hi : i < 256) (hj : j < 256) (hx : x < 256) (hy : y < 256) :
    RHas (.prod 86 peIn) (inp op a b i j x y) := ⟨ri_has ho ha hb hi hj, hx, hy, trivial⟩

/-- Two entries that are the same, except perhaps for the constant in the leaf `pos`. -/
def Alike (pos : RPath) (e e' : RSrc × RPath) : Prop := e'.2 = e.2 ∧ (e'.1 = e.1 ∨ e.2 = pos ∧ ∃ c c', e.1 = .const c ∧ e'.1 = .const c')

theorem alike_symm {pos : RPath} {e e' : RSrc × RPath} (h : Alike pos e e') : Alike pos e' e := by
  obtain ⟨h1, h2 | ⟨h2, c, c', h3, h4⟩⟩ := h
  · exact ⟨h1.symm, .inl h2.symm⟩
  · exact ⟨h1.symm, .inr ⟨h1.trans h2, c', c, h4, h3⟩⟩

theorem alike_paths {pos : RPath} {l l' : List (RSrc × RPath)} (h : List.Forall₂ (Alike pos) l l') : l'.map (·.2) = l.map (·.2) ∧ irSources l' = irSources l := by
  induction h with
  | nil => exact ⟨rfl, rfl⟩
  | @cons e e' _ _ h _ ih =>
    refine ⟨by simp only [List.map_cons, h.1, ih.1], ?_⟩
    have := ih.2
    simp only [irSources] at this ⊢
    rcases h.2 with h | ⟨_, c, c', h1, h2⟩
    · simp only [List.filterMap_cons, h, this]
    · simp only [List.filterMap_cons, h1, h2, this]

theorem alike_mem {R : RSrc × RPath → RSrc × RPath → Prop} {l l' : List (RSrc × RPath)} (h : List.Forall₂ R l l') {e' : RSrc × RPath} (he : e' ∈ l') : ∃ e ∈ l, R e e' := by
  induction h with
  | nil => cases he
  | cons h _ ih =>
    rcases List.mem_cons.mp he with rfl | he
    · exact ⟨_, List.mem_cons_self .., h⟩
    · obtain ⟨e, h1, h2⟩ := ih he
      exact ⟨e, List.mem_cons_of_mem _ h1, h2⟩

/-- Inputs of the one rule are inputs of the other, with another immediate. -/
theorem related_alike {irT : Ty} {pos : RPath} {l l' : List (RSrc × RPath)} (h : List.Forall₂ (Alike pos) l l') {ri : RVal} {op a b i j x y i' j' : Nat} (hi' : i' < 256) (hj' : j' < 256)
    (hpos : pos = [0, 0, 3] ∧ j' = j ∨ pos = [0, 0, 4] ∧ i' = i)
    (hc : ∀ s, (s, pos) ∈ l' → ∃ c, s = .const c ∧ ConstIs c wordT (if pos = [0, 0, 3] then i' else j')) (hR : Related irT (.prod 86 peIn) l ri (inp op a b i j x y)) :
    Related irT (.prod 86 peIn) l' ri (inp op a b i' j' x y) := by
  obtain ⟨e1, e2⟩ := alike_paths h
  refine ⟨hR.ir, ?_, ?_, ?_, ?_⟩
  · obtain ⟨inst, x', y', e, h1, hx, hy⟩ := in_shape hR.arch
    simp only [inp, RVal.prod.injEq, List.cons.injEq, RVal.leaf.injEq, and_true] at e
    obtain ⟨rfl, rfl, rfl⟩ := e
    rcases inst_shape h1 with ⟨_, _, _, _, e, _⟩ | ⟨_, _, _, _, _, e, g1, g2, g3, g4, g5⟩
    · cases e
    · cases e
      exact inp_has g1 g2 g3 hi' hj' hx hy
  · rw [e1]
    refine hR.arch_paths.trans (List.Perm.of_eq ?_)
    simp only [inp_leaves, List.map_cons, List.map_nil]
  · rw [e2]
    exact hR.ir_paths
  · intro e' he'
    by_cases hp : e'.2 = pos
    · obtain ⟨c, h1, h2⟩ := hc e'.1 (by rw [← hp]; exact he')
      rcases hpos with ⟨rfl, _⟩ | ⟨rfl, _⟩
      · refine ⟨wordT, i', by simp [hp, inp_leaves], ?_⟩
        rw [h1]
        exact h2
      · refine ⟨wordT, j', by simp [hp, inp_leaves], ?_⟩
        rw [h1]
        exact h2
    · obtain ⟨e, he, hA⟩ := alike_mem h he'
      have ee : e = e' := by
        rcases hA.2 with h | ⟨h, _⟩
        · exact (Prod.ext h hA.1).symm
        · exact absurd (hA.1.trans h) hp
      subst ee
      obtain ⟨t, m, h1, h2⟩ := hR.entries _ he
      refine ⟨t, m, ?_, h2⟩
      simp only [inp_leaves, List.mem_cons, List.not_mem_nil, or_false] at h1 ⊢
      rcases hpos with ⟨rfl, rfl⟩ | ⟨rfl, rfl⟩
      · rcases h1 with h | h | h | h | h | h | h
        · exact .inl h
        · exact .inr (.inl h)
        · exact .inr (.inr (.inl h))
        · exact absurd (congrArg Prod.fst h) hp
        · exact .inr (.inr (.inr (.inr (.inl h))))
        · exact .inr (.inr (.inr (.inr (.inr (.inl h)))))
        · exact .inr (.inr (.inr (.inr (.inr (.inr h)))))
      · rcases h1 with h | h | h | h | h | h | h
        · exact .inl h
        · exact .inr (.inl h)
        · exact .inr (.inr (.inl h))
        · exact .inr (.inr (.inr (.inl h)))
        · exact absurd (congrArg Prod.fst h) hp
        · exact .inr (.inr (.inr (.inr (.inr (.inl h)))))
        · exact .inr (.inr (.inr (.inr (.inr (.inr h)))))

/-- A rule that is like a correct one, except for the immediate that is not read, is correct. -/
theorem correct_alike {P : Process} (hP : MildProcess P) {enc : IEnc} {n : Nat} (hn : 0 < n) {f : List Word → Word} (hu : Uses n f) {r r' : RRule} (hob : r'.ob = r.ob)
    (hib : List.Forall₂ (SameButAt (problem P.asm enc true n f).arch.inT (CouldHold (problem P.asm enc true n f))) r.ib r'.ib) (hM : IsMapping P.asm (problem P.asm enc true n f) r')
    (hC : RuleCorrect (wordIr 8 n f) (pe P.asm) (WIr.wordFn 8 f) peFn r') :
    IsMapping P.asm (problem P.asm enc true n f) r ∧ RuleCorrect (wordIr 8 n f) (pe P.asm) (WIr.wordFn 8 f) peFn r := by
  obtain ⟨inst, src, out, hi, hv, _, hcomp, hsrc, hperm, _⟩ := InM.choice_of_rule_src (pb := problem P.asm enc true n f) (setup P hn f) (const_problem P enc true n f) hM hC
  obtain ⟨op, a, b, i, j, rfl, h1, h2, h3, h4, h5⟩ := ri_of_const hn hi hcomp.1
  have himm := imm_of_uses hu hi hcomp
  rw [ri_paths] at hperm
  have hnd : (r'.ib.map (·.2)).Nodup := hperm.nodup_iff.mpr (by decide)
  have uniq : ∀ s s' p, (s, p) ∈ r'.ib → (s', p) ∈ r'.ib → s = s' := by
    intro s s' p hs hs'
    have := List.inj_on_of_nodup_map hnd hs hs' rfl
    exact (Prod.ext_iff.mp this).1
  have h04 : (RSrc.path [1], [0, 0, 4]) ∈ r'.ib := (hsrc _ _).mp himm
  -- the entries are alike
  have hA : List.Forall₂ (Alike [0, 0, 3]) r.ib r'.ib := by
    rw [List.forall₂_iff_get] at hib ⊢
    refine ⟨hib.1, fun k hk hk' => ?_⟩
    obtain ⟨g1, g2 | ⟨g2, c, c', t, m, g3, g4, _⟩⟩ := hib.2 k hk hk'
    · exact ⟨g1, .inl g2⟩
    · refine ⟨g1, .inr ⟨?_, c, c', g3, g4⟩⟩
      rcases could_hold g2 with h | h
      · exact h
      · exfalso
        have hm : ((r'.ib.get ⟨k, hk'⟩).1, (r'.ib.get ⟨k, hk'⟩).2) ∈ r'.ib := List.get_mem _ _
        rw [g1, h, g4] at hm
        cases uniq _ _ _ h04 hm
  have hconst : ∀ s, (s, [0, 0, 3]) ∈ r'.ib → ∃ c, s = .const c := by
    intro s hs
    cases s with
    | const c => exact ⟨c, rfl⟩
    | unbound => exact absurd ⟨[0], by simp [problem], by simp⟩ (hM.unbound _ hs).1
    | path q =>
      exfalso
      obtain ⟨_, _, t, hq, _⟩ := hM.bound _ _ hs
      have hq : (q, t) ∈ leafTypes (.prod 8 (wordFields 8 1 n)) [] := hq
      simp only [leafTypes, InM.flat_types (WIr.fields_flat 8 1 n), List.mem_map, Prod.mk.injEq] at hq
      obtain ⟨⟨k, u⟩, hk, rfl, _⟩ := hq
      have hk1 := (hsrc [0, 0, 3] k).mpr hs
      rcases feeds_leaf hcomp.1 (p := [0, 3]) (t := wordT) (m := i) (by simp [ri_leaves]) with h | ⟨h, _⟩
      · rw [h] at hk1; cases hk1
      · obtain ⟨p, _, _, hp⟩ := hcomp.1.once 1 (.bv 0 8) (WIr.fields_mem.mpr ⟨Nat.le_refl _, by omega, rfl⟩)
        have e1 := hp [0, 0, 3] (by simp [ri_paths]) h
        have e2 := hp [0, 0, 4] (by simp [ri_paths]) himm
        rw [← e2] at e1
        cases e1
  have shape : ∀ {l : List (RSrc × RPath)} {rr ra : RVal}, l.map (·.2) = r'.ib.map (·.2) → Related (wordIr 8 n f).inT (pe P.asm).inT l rr ra →
      ∃ op a b i j x y, ra = inp op a b i j x y ∧ op < 8 ∧ a < 4 ∧ b < 4 ∧ i < 256 ∧ j < 256 ∧ x < 256 ∧ y < 256 := by
    intro l rv ra hl hR
    obtain ⟨inst, x, y, rfl, g1, g2, g3⟩ := in_shape hR.arch
    rcases inst_shape g1 with ⟨op, a, b, c, rfl, _⟩ | ⟨op, a, b, i, j, rfl, k1, k2, k3, k4, k5⟩
    · exfalso
      have h1 : ([0, 0, 4] : RPath) ∈ l.map (·.2) := by rw [hl]; exact List.mem_map.mpr ⟨_, h04, rfl⟩
      have h2 := hR.arch_paths.subset h1
      have e : rawLeaves (pe P.asm).inT (.prod [rr op a b c, .leaf x, .leaf y]) = (rawLeaves instT (rr op a b c)).map (fun l => (0 :: l.1, l.2)) ++ [([1], wordT, x), ([2], wordT, y)] := rfl
      rw [e, rr_leaves] at h2
      simp at h2
    · exact ⟨op, a, b, i, j, x, y, rfl, k1, k2, k3, k4, k5, g2, g3⟩
  obtain ⟨ri0, vs0, hR0, hV0⟩ := hM.input
  obtain ⟨op0, a0, b0, i0, j0, x0, y0, e0, k1, k2, k3, k4, k5, k6, k7⟩ := shape rfl hR0
  have hc' : ∀ s, (s, [0, 0, 3]) ∈ r'.ib → ∃ c, s = .const c ∧ ConstIs c wordT i0 := by
    intro s hs
    obtain ⟨c, rfl⟩ := hconst s hs
    refine ⟨c, rfl, ?_⟩
    obtain ⟨t, m, g1, g2⟩ := hR0.entries _ hs
    have g1 : ([0, 0, 3], t, m) ∈ rawLeaves (.prod 86 peIn) (.prod vs0) := g1
    rw [e0, inp_leaves] at g1
    simp at g1
    obtain ⟨rfl, rfl⟩ := g1
    exact g2
  have paths := alike_paths hA
  -- the immediate of the rule
  have : ∃ i1 < 256, ∀ s, (s, [0, 0, 3]) ∈ r.ib → ∃ c, s = .const c ∧ ConstIs c wordT i1 := by
    have hm : ([0, 0, 3] : RPath) ∈ r.ib.map (·.2) := by
      rw [← paths.1]
      exact hperm.symm.subset (by simp)
    obtain ⟨⟨s, p⟩, hs, hp⟩ := List.mem_map.mp hm
    simp only at hp
    subst hp
    have hnd' : (r.ib.map (·.2)).Nodup := by rw [← paths.1]; exact hnd
    have uniq' : ∀ s', (s', [0, 0, 3]) ∈ r.ib → s' = s := by
      intro s' hs'
      have := List.inj_on_of_nodup_map hnd' hs' hs rfl
      exact (Prod.ext_iff.mp this).1
    have : ∃ e' ∈ r'.ib, SameButAt (problem P.asm enc true n f).arch.inT (CouldHold (problem P.asm enc true n f)) (s, [0, 0, 3]) e' := by
      clear * - hib hs
      generalize r.ib = l at hib hs
      generalize r'.ib = l' at hib
      induction hib with
      | nil => cases hs
      | cons h _ ih =>
        rcases List.mem_cons.mp hs with rfl | hs
        · exact ⟨_, List.mem_cons_self .., h⟩
        · obtain ⟨e, h1, h2⟩ := ih hs
          exact ⟨e, List.mem_cons_of_mem _ h1, h2⟩
    obtain ⟨⟨s', p'⟩, hs', g1, g2⟩ := this
    simp only at g1 g2
    subst g1
    rcases g2 with rfl | ⟨_, c, c', t, m, g3, _, g4, g5, g6⟩
    · refine ⟨i0, k4, fun s'' hs'' => ?_⟩
      rw [uniq' _ hs'']
      exact hc' _ hs'
    · have et : t = wordT := by
        have g4 : (([0, 0, 3] : RPath), t) ∈ leafTypes (.prod 86 peIn) [] := g4
        simp [leafTypes, leafTypesF, peIn, instT, opts, riT, rrT, riOpT, rrOpT, idxT, wordT] at g4
        exact g4
      subst et
      refine ⟨m, g5, fun s'' hs'' => ?_⟩
      rw [uniq' _ hs'']
      exact ⟨c, g3, g6⟩
  obtain ⟨i1, hi1, hc⟩ := this
  have hA' : List.Forall₂ (Alike [0, 0, 3]) r'.ib r.ib := hA.flip.imp (fun _ _ h => alike_symm h)
  constructor
  · refine ⟨⟨ri0, [ri op0 a0 b0 i1 j0, .leaf x0, .leaf y0], ?_, ?_⟩, hob ▸ hM.outs, ?_, ?_, ?_⟩
    · rw [e0] at hR0
      exact related_alike hA' hi1 k5 (.inl ⟨rfl, rfl⟩) (by simpa using hc) hR0
    · intro c fs e k v hk hkc
      have hkc : k = 0 := by simpa [problem] using hkc
      subst hkc
      have e : Ty.prod 86 peIn = .prod c fs := e
      cases e
      have h0 := hV0 86 peIn rfl 0 (mkAV instT (rawCode instT (ri op0 a0 b0 i0 j0))) (by
        have : vs0 = [ri op0 a0 b0 i0 j0, .leaf x0, .leaf y0] := by
          simpa only [inp, RVal.prod.injEq] using e0
        rw [this]
        simp [peIn, inputDict]) (by simp [problem])
      simp [peIn, inputDict] at hk
      subst hk
      rw [ri_valid hP k1 k2 k3 k4 k5] at h0
      rwa [ri_valid hP k1 k2 k3 hi1 k5]
    · intro q p hq
      obtain ⟨e', he', hA'⟩ := alike_mem hA' hq
      refine hM.bound q p ?_
      rcases hA'.2 with h | ⟨_, c, c', _, h⟩
      · have : e' = (.path q, p) := Prod.ext h.symm hA'.1.symm
        exact this ▸ he'
      · cases h
    · intro c p hq
      obtain ⟨e', he', hA'⟩ := alike_mem hA' hq
      refine ⟨?_, fun cs h => by simp [problem] at h⟩
      rcases hA'.2 with h | ⟨h, _⟩
      · have : e' = (.const c, p) := Prod.ext h.symm hA'.1.symm
        exact (hM.const c p (this ▸ he')).1
      · have : p = [0, 0, 3] := hA'.1.trans h
        subst this
        exact ⟨[0], by simp [problem], by simp⟩
    · intro p hq
      obtain ⟨e', he', hA'⟩ := alike_mem hA' hq
      refine hM.unbound p ?_
      rcases hA'.2 with h | ⟨_, c, c', _, h⟩
      · have : e' = (.unbound, p) := Prod.ext h.symm hA'.1.symm
        exact this ▸ he'
      · cases h
  · intro rv ra hR F ρi ρa hbi hba
    obtain ⟨op, a, b, i, j, x, y, rfl, l1, l2, l3, l4, l5, l6, l7⟩ := shape paths.1.symm hR
    have := hC rv (inp op a b i0 j x y) (related_alike hA k4 l5 (.inl ⟨rfl, rfl⟩) (by simpa using hc') hR) F ρi ρa hbi hba
    rw [hob] at this
    exact this

theorem no_enum {P : Process} {enc : IEnc} {const : Bool} {n : Nat} {f : List Word → Word} :
    ∀ q c ms, [q] ∈ (problem P.asm enc const n f).irConst → (q, Ty.enum c ms) ∉ (wordFields 8 1 n).toList := by
  intro q c ms _ h
  cases (WIr.fields_mem.mp h).2.2

/-- C88: with `simple_formula=True` and a `Const` first word, a rule is returned exactly if one instruction computes the function; it is correct if the function depends on the
constant.  Not in general: see `C88_violated_unused`. -/
theorem C88_mapped_simple_const_partial (P : Process) (hP : MildProcess P) (enc : IEnc) (n : Nat) (hn : 0 < n) (f : List Word → Word)
    (solve : (SAsg Nat → Prop) → Option (SAsg Nat)) (hsat : ∀ φ a, solve φ = some a → φ a) (hcomp : ∀ φ a, φ a → ∃ a', solve φ = some a') (a0 : SAsg Nat) :
    (Fits true n f → ∃ r, simpleSolve P.asm (problem P.asm enc true n f) solve a0 = .ok (some r) ∧
      (Uses n f → IsMapping P.asm (problem P.asm enc true n f) r ∧ RuleRight P (wordIr 8 n f) (pe P.asm) r)) ∧
    (¬ Fits true n f → simpleSolve P.asm (problem P.asm enc true n f) solve a0 = .ok none) := by
  have key := C55_instruction_consts_partial P (problem P.asm enc true n f) (WIr.wordFn 8 f) peFn (fun _ => [1]) 0 instT _ _ _ _ (const_problem P enc true n f)
    (setup P hn f) (pe_total P) (boxes P) ((known hP).leaves (known_leaves hP)) no_enum (ops_kept hP) solve hsat hcomp a0
  rw [can_iff hP hn] at key
  refine ⟨fun h => ?_, key.2⟩
  obtain ⟨r, h1, r', h2, h3, h4, h5⟩ := key.1 h
  refine ⟨r, h1, fun hu => ?_⟩
  obtain ⟨h6, h7⟩ := correct_alike hP hn hu h2 h3 h4 h5
  exact ⟨h6, _, _, (setup P hn f).ir_fn, (setup P hn f).arch_fn, h7⟩

/-- A sound and complete solver. -/
theorem solver_exists : ∃ solve : (SAsg Nat → Prop) → Option (SAsg Nat), (∀ φ a, solve φ = some a → φ a) ∧ ∀ φ a, φ a → ∃ a', solve φ = some a' := by
  classical
  refine ⟨fun φ => if h : ∃ a, φ a then some h.choose else none, ?_, ?_⟩
  · intro φ a h
    simp only at h
    split at h
    · next hx => cases h; exact hx.choose_spec
    · cases h
  · intro φ a h
    exact ⟨_, dif_pos ⟨a, h⟩⟩

/-- C88: what `test_basic` checks (tests/test_basic_rr.py:76-85), for any sound and complete solver and either encoding: `a + b`, `a + 1` and the constant are mapped by correct rules. -/
theorem C88_test_basic (P : Process) (hP : MildProcess P) (enc : IEnc)
    (solve : (SAsg Nat → Prop) → Option (SAsg Nat)) (hsat : ∀ φ a, solve φ = some a → φ a) (hcomp : ∀ φ a, φ a → ∃ a', solve φ = some a') (a0 : SAsg Nat) :
    (∃ r, simpleSolve P.asm (problem P.asm enc false 2 (fun xs => at' xs 0 + at' xs 1)) solve a0 = .ok (some r) ∧ RuleRight P (wordIr 8 2 (fun xs => at' xs 0 + at' xs 1)) (pe P.asm) r) ∧
    (∃ r, simpleSolve P.asm (problem P.asm enc false 1 (fun xs => at' xs 0 + 1)) solve a0 = .ok (some r) ∧ RuleRight P (wordIr 8 1 (fun xs => at' xs 0 + 1)) (pe P.asm) r) ∧
    (∃ r, simpleSolve P.asm (problem P.asm enc true 1 (fun xs => at' xs 0)) solve a0 = .ok (some r) ∧ RuleRight P (wordIr 8 1 (fun xs => at' xs 0)) (pe P.asm) r) := by
  refine ⟨?_, ?_, ?_⟩
  · obtain ⟨r, h1, _, h2⟩ := (C88_mapped_simple P hP enc 2 (by decide) (fun xs => at' xs 0 + at' xs 1) solve hsat hcomp a0).1
      ⟨by decide, .inr (.inr (.inl ⟨rfl, rfl, .inl fun x y => rfl⟩))⟩
    exact ⟨r, h1, h2⟩
  · obtain ⟨r, h1, _, h2⟩ := (C88_mapped_simple P hP enc 1 (by decide) (fun xs => at' xs 0 + 1) solve hsat hcomp a0).1
      ⟨by decide, .inr (.inl ⟨0, 1, ⟨by decide, by decide⟩, fun xs _ => rfl⟩)⟩
    exact ⟨r, h1, h2⟩
  · obtain ⟨r, h1, h2⟩ := (C88_mapped_simple_const_partial P hP enc 1 (by decide) (fun xs => at' xs 0) solve hsat hcomp a0).1
      ⟨by decide, .inr (.inr (.inr ⟨rfl, .inl fun xs _ => rfl⟩))⟩
    exact ⟨r, h1, (h2 ⟨0, 1, [], rfl, by decide⟩).2⟩

/-- `a - b` is not among the functions. -/
example : ¬ Fits false 2 (fun xs => at' xs 0 - at' xs 1) := by
  rintro ⟨_, ⟨k, h⟩ | ⟨i, k, _, h⟩ | ⟨_, _, h | h⟩ | ⟨h, _⟩⟩
  · exact absurd ((h [0, 0] rfl).trans (h [1, 0] rfl).symm) (by decide)
  · have e0 := h [0, 0] rfl
    have e1 := h [0, 1] rfl
    have e2 := h [1, 0] rfl
    match i with
    | 0 => exact absurd (e0.trans e1.symm) (by decide)
    | 1 =>
      have e0 : (0 : Word) = 0 + k := e0
      have e1 : (-1 : Word) = 1 + k := e1
      have e0 : k = 0 := by simpa using e0.symm
      rw [e0] at e1
      exact absurd e1 (by decide)
    | i + 2 => exact absurd (e0.trans e1.symm) (by decide)
  · exact absurd (h 0 1) (by decide)
  · exact absurd (h 1 1) (by decide)
  · cases h

/-- The instruction for a fixed word: the constant is in the immediate that is not read. -/
theorem fixed_word {P : Process} {enc : IEnc} {k : Word} {r : RRule} (hM : IsMapping P.asm (problem P.asm enc true 1 (fun _ => k)) r)
    (hC : RuleCorrect (wordIr 8 1 (fun _ => k)) (pe P.asm) (WIr.wordFn 8 (fun _ => k)) peFn r) :
    ∃ a b i x y rv, Related (wordIr 8 1 (fun _ => k)).inT (.prod 86 peIn) r.ib rv (inp 3 a b i k.toNat x y) ∧ (some [0], [0]) ∈ r.ob ∧ (r.ib.map (·.2)).Nodup ∧
      (RSrc.path [1], [0, 0, 3]) ∈ r.ib ∧ ∃ c, (RSrc.const c, [0, 0, 4]) ∈ r.ib := by
  obtain ⟨inst, src, out, hi, hv, _, hcomp, hsrc, hperm, hout, rv, ys, hR⟩ :=
    InM.choice_of_rule_src (pb := problem P.asm enc true 1 (fun _ => k)) (setup P (n := 1) (by decide) (fun _ => k)) (const_problem P enc true 1 _) hM hC
  obtain ⟨op, a, b, i, j, rfl, h1, h2, h3, h4, h5⟩ := ri_of_const (by decide) hi hcomp.1
  have hW := feeds_wires hcomp.1
  have s1 : src [1] = none := by
    cases hs : src [1] with
    | none => rfl
    | some q =>
      have := hW.1 q (.inl hs)
      have nat_case : ∀ q : Nat, lo true ≤ q ∧ q ≤ 1 → False := by
        intro q h
        simp only [lo, if_true] at h
        omega
      exact (nat_case q this).elim
  obtain ⟨o, ho1, ho2, _⟩ := hcomp.2.1.once 0 wordT (by simp [Fields.toList])
  have ho : o = 0 ∨ o = 1 := by simpa [peOut, Fields.toList] using ho1
  -- what is computed
  have key : ∀ x z : Key → Nat, k = if o = 0 then (if op == 3 then BitVec.ofNat 8 (held src x [0, 0, 4] j) else BitVec.ofNat 8 (z 1) + BitVec.ofNat 8 (held src x [0, 0, 4] j))
      else BitVec.ofNat 8 (z 1) := by
    intro x z
    obtain ⟨inst', hH⟩ := InM.holds_exists (k0 := 0) inst_wf hi src x
    have := hcomp.2.2 x z _ (fun _ _ => []) (fun _ _ => 0) (fun _ _ => 0) hH (by simp [BoxesCompute, problem, wordIr]) (by simp [BoxesCompute, problem, pe]) o
      (by rcases ho with rfl | rfl <;> simp [peOut, Fields.toList]) 0 ho2
    have e1 := fn_out inst' (fun k => src [k]) x z ho
    have e2 := fn_ir 1 (fun _ => k) x
    have e := BitVec.eq_of_toNat_eq (e2.symm.trans (this.symm.trans e1))
    obtain ⟨_, _, _, rfl⟩ := holds_ri hcomp.1 hH
    rw [e]
    simp only [outv, ri, res, wired, s1]
  have ho : o = 0 := by
    rcases ho with h | rfl
    · exact h
    · have := (key (fun _ => 0) (fun _ => 0)).symm.trans (key (fun _ => 0) (fun _ => 1))
      rw [if_neg (by decide), if_neg (by decide)] at this
      exact absurd this (by decide)
  subst ho
  simp only [if_true] at key
  have hop : op = 3 := by
    by_contra hne
    have hne : (op == 3) = false := by simpa using hne
    simp only [hne, Bool.false_eq_true, if_false] at key
    have := (key (fun _ => 0) (fun _ => 0)).symm.trans (key (fun _ => 0) (fun _ => 1))
    exact absurd ((BitVec.add_left_inj _).mp this) (by decide)
  subst hop
  simp only [beq_self_eq_true, if_true] at key
  have s4 : src [0, 0, 4] = none := by
    rcases feeds_leaf hcomp.1 (p := [0, 4]) (t := wordT) (m := j) (by simp [ri_leaves]) with h | ⟨h, _⟩
    · exact h
    · have := (key (fun _ => 0) (fun _ => 0)).symm.trans (key (fun _ => 1) (fun _ => 0))
      simp only [held, h] at this
      exact absurd this (by decide)
  have ej : j = k.toNat := by
    have := key (fun _ => 0) (fun _ => 0)
    simp only [held, s4] at this
    rw [this]
    simp [Nat.mod_eq_of_lt h5]
  subst ej
  rw [ri_paths] at hperm
  have s3 : src [0, 0, 3] = some 1 := by
    obtain ⟨p, hp1, hp2, _⟩ := hcomp.1.once 1 (.bv 0 8) (WIr.fields_mem.mpr ⟨Nat.le_refl _, by decide, rfl⟩)
    rw [ri_paths] at hp1
    have hl : ∀ p t m, (p, t, m) ∈ rawLeaves instT (ri 3 a b i k.toNat) → t ≠ wordT → src (0 :: p) ≠ some 1 := by
      intro p t m hp ht he
      rcases feeds_leaf hcomp.1 hp with h | ⟨_, _, h⟩
      · rw [h] at he; cases he
      · exact ht h
    simp only [List.mem_cons, List.not_mem_nil, or_false] at hp1
    rcases hp1 with rfl | rfl | rfl | rfl | rfl | rfl | rfl
    · exact absurd hp2 (hl [0, 0] riOpT 3 (by simp [ri_leaves]) (by simp [riOpT, wordT]))
    · exact absurd hp2 (hl [0, 1] idxT a (by simp [ri_leaves]) (by simp [idxT, wordT]))
    · exact absurd hp2 (hl [0, 2] idxT b (by simp [ri_leaves]) (by simp [idxT, wordT]))
    · exact hp2
    · rw [s4] at hp2; cases hp2
    · have := (hW.1 1 (.inl hp2)).1
      simp [lo] at this
    · have := (hW.1 1 (.inr hp2)).1
      simp [lo] at this
  obtain ⟨inst', x, y, e, _⟩ := in_shape hR.arch
  simp only [RVal.prod.injEq, List.cons.injEq] at e
  obtain ⟨_, rfl⟩ := e
  refine ⟨a, b, i, x, y, rv, hR, hout 0 (by simp [peOut, Fields.toList]) 0 ho2, hperm.nodup_iff.mpr (by decide), (hsrc _ _).mp s3, ?_⟩
  obtain ⟨⟨s, p⟩, hs, hp⟩ := List.mem_map.mp (hperm.symm.subset (show ([0, 0, 4] : RPath) ∈ _ by simp))
  simp only at hp
  subst hp
  cases s with
  | const c => exact ⟨c, hs⟩
  | unbound => exact absurd ⟨[0], by simp [problem], by simp⟩ (hM.unbound _ hs).1
  | path q =>
    obtain ⟨_, _, t, hq, _⟩ := hM.bound _ _ hs
    have hq : (q, t) ∈ leafTypes (.prod 8 (wordFields 8 1 1)) [] := hq
    simp only [leafTypes, InM.flat_types (WIr.fields_flat 8 1 1), List.mem_map, Prod.mk.injEq] at hq
    obtain ⟨⟨k, u⟩, hk, rfl, _⟩ := hq
    have := (hsrc [0, 0, 4] k).mpr hs
    rw [s4] at this
    cases this

/-- C88, violated: with `simple_formula=True` an IR instruction with a `Const` word that returns a fixed word is mapped by a wrong rule, for some sound and complete solver: the rule may load
any word, for it is read off a variable the formula does not have. -/
theorem C88_violated_unused (P : Process) (hP : MildProcess P) (enc : IEnc) (k : Word) (a0 : SAsg Nat) :
    ∃ solve : (SAsg Nat → Prop) → Option (SAsg Nat), (∀ φ a, solve φ = some a → φ a) ∧ (∀ φ a, φ a → ∃ a', solve φ = some a') ∧
      ∃ r, simpleSolve P.asm (problem P.asm enc true 1 (fun _ => k)) solve a0 = .ok (some r) ∧ ¬ RuleRight P (wordIr 8 1 (fun _ => k)) (pe P.asm) r := by
  obtain ⟨solve, hsat, hcomp⟩ := solver_exists
  have S1 := setup P (n := 1) (by decide) (fun _ => k)
  have S2 := setup P (n := 1) (by decide) (fun xs => at' xs 0)
  have C1 := const_problem P enc true 1 (fun _ => k)
  have C2 := const_problem P enc true 1 (fun xs => at' xs 0)
  obtain ⟨r, hr, _⟩ := (C88_mapped_simple_const_partial P hP enc 1 (by decide) (fun _ => k) solve hsat hcomp a0).1 ⟨by decide, .inl ⟨k, fun _ _ => rfl⟩⟩
  obtain ⟨r2, hr2, hok⟩ := (C88_mapped_simple_const_partial P hP enc 1 (by decide) (fun xs => at' xs 0) solve hsat hcomp a0).1
    ⟨by decide, .inr (.inr (.inr ⟨rfl, .inl fun xs _ => rfl⟩))⟩
  have hu : Uses 1 (fun xs => at' xs 0) := ⟨0, 1, [], rfl, by decide⟩
  obtain ⟨hM2, hC2⟩ := hok hu
  rw [RR.C33_right S2.ir_out.1 S2.arch_out.1 S2.ir_fn S2.arch_fn] at hC2
  obtain ⟨bs, i, bi, l, ib, hbs, hl, hib, ⟨m, hE⟩, solve', hsat', hcomp', r', hr', hob, hRep⟩ :=
    InM.replaced C1 S1 (pe_total P) (boxes P) ((known hP).leaves (known_leaves hP)) no_enum hsat hcomp hr (fun _ => (k + 1).toNat)
  obtain ⟨bs2, i2, bi2, l2, ib2, hbs2, hl2, hib2, ⟨m2, hE2⟩, _⟩ :=
    InM.replaced C2 S2 (pe_total P) (boxes P) ((known hP).leaves (known_leaves hP)) no_enum hsat hcomp hr2 (fun _ => 0)
  have hins : bs2.ins = bs.ins :=
    (IM.bindings_inv' (pb := problem P.asm enc true 1 (fun xs => at' xs 0)) S2.ir_in S2.arch_in hbs2).1.ins.trans
      (IM.bindings_inv' (pb := problem P.asm enc true 1 (fun _ => k)) S1.ir_in S1.arch_in hbs).1.ins.symm
  refine ⟨solve', hsat', hcomp', r', hr', ?_⟩
  rw [RR.C33_right S1.ir_out.1 S1.arch_out.1 S1.ir_fn S1.arch_fn]
  intro hC
  -- a correct rule, with other constants
  obtain ⟨r3, hob3, hib3, hM3, hC3⟩ := C55_sound_up_to_places_partial P (problem P.asm enc true 1 (fun _ => k)) _ _ _ (VF.setup0 S1) (fun p cs h => by simp [problem] at h) solve' hsat' a0 r' hr'
  obtain ⟨a, b, i0, x, y, rv, hR, h00, hnd, h3, c4, h4⟩ := fixed_word hM3 hC3
  have uniq : ∀ s s' p, (s, p) ∈ r3.ib → (s', p) ∈ r3.ib → s = s' := by
    intro s s' p hs hs'
    exact (Prod.ext_iff.mp (List.inj_on_of_nodup_map hnd hs hs' rfl)).1
  -- the leaf is quantified both ways
  have m4' : ∃ c, (RSrc.const c, [0, 0, 4]) ∈ r'.ib := by
    obtain ⟨⟨s, p⟩, g1, g2, g3⟩ := alike_mem hib3 h4
    simp only at g2 g3
    subst g2
    rcases g3 with rfl | ⟨_, c, _, _, _, rfl, _⟩
    · exact ⟨_, g1⟩
    · exact ⟨_, g1⟩
  obtain ⟨c', m4'⟩ := m4'
  obtain ⟨⟨s, p⟩, m4, g2, g3⟩ := alike_mem hRep m4'
  simp only at g2 g3
  subst g2
  have hc : ∃ c, s = .const c := by
    rcases g3 with ⟨_, h⟩ | ⟨_, h, _⟩
    · exact ⟨c', h.symm⟩
    · exact h
  obtain ⟨c, rfl⟩ := hc
  have hne : (none, [0, 0, 4]) ∈ ib := by
    have : ∃ e ∈ ib, IM.EntryR (problem P.asm enc true 1 (fun _ => k)) m e (.const c, [0, 0, 4]) := by
      clear * - hE m4
      generalize r.ib = rib at hE m4
      induction hE with
      | nil => cases m4
      | cons h _ ih =>
        rcases List.mem_cons.mp m4 with rfl | m4
        · exact ⟨_, List.mem_cons_self .., h⟩
        · obtain ⟨e, h1, h2⟩ := ih m4
          exact ⟨e, List.mem_cons_of_mem _ h1, h2⟩
    obtain ⟨⟨x, p⟩, h1, h2, h3⟩ := this
    simp only at h2 h3
    subst h2
    rcases h3 with ⟨q, _, h⟩ | ⟨h, _⟩ | ⟨h, _⟩
    · cases h
    · rwa [h] at h1
    · rwa [h] at h1
  have hsome : (some [1], [0, 0, 4]) ∈ ib2 := by
    obtain ⟨inst, src, out, hi, hv, _, hcomp, hsrc, _⟩ := InM.choice_of_rule_src (pb := problem P.asm enc true 1 (fun xs => at' xs 0)) S2 C2 hM2 hC2
    obtain ⟨op, a, b, i, j, rfl, _⟩ := ri_of_const (by decide) hi hcomp.1
    have hm := (hsrc _ _).mp (imm_of_uses hu hi hcomp)
    have : ∃ e ∈ ib2, IM.EntryR (problem P.asm enc true 1 (fun xs => at' xs 0)) m2 e (.path [1], [0, 0, 4]) := by
      clear * - hE2 hm
      generalize r2.ib = rib at hE2 hm
      induction hE2 with
      | nil => cases hm
      | cons h _ ih =>
        rcases List.mem_cons.mp hm with rfl | hm
        · exact ⟨_, List.mem_cons_self .., h⟩
        · obtain ⟨e, h1, h2⟩ := ih hm
          exact ⟨e, List.mem_cons_of_mem _ h1, h2⟩
    obtain ⟨⟨x, p⟩, h1, h2, h3⟩ := this
    simp only at h2 h3
    subst h2
    rcases h3 with ⟨q, h, h'⟩ | ⟨_, _, c, _, h, _⟩ | ⟨_, _, _, h⟩
    · cases h'
      rwa [h] at h1
    · cases h
    · cases h
  have hover : bs.overlap (problem P.asm enc true 1 (fun _ => k)) [0, 0, 4] = true := by
    rw [SFm.overlap_iff]
    constructor
    · refine List.ne_nil_of_mem (a := (i2, bi2)) (SFm.mem_forall.mpr ⟨ib2, _, SFm.mem_fbs.mpr ⟨l2, ?_, hib2⟩, hsome, rfl, .inl rfl⟩)
      rw [← hins]
      exact hl2
    · exact List.ne_nil_of_mem (a := (i, bi)) (SFm.mem_exists.mpr ⟨ib, SFm.mem_fbs.mpr ⟨l, hl, hib⟩, hne, by simp [problem, constAt]⟩)
  have hval : ConstIs c' wordT (k + 1).toNat := by
    rcases g3 with ⟨h | h, _⟩ | ⟨_, _, c1, t, h1, h2, h3⟩
    · exact absurd hover h
    · exact absurd rfl (h c)
    · cases h1
      have h2 : (([0, 0, 4] : RPath), t) ∈ leafTypes (.prod 86 peIn) [] := h2
      simp [leafTypes, leafTypesF, peIn, instT, opts, riT, rrT, riOpT, rrOpT, idxT, wordT] at h2
      subst h2
      rwa [Nat.mod_eq_of_lt (show (k + 1).toNat < 2 ^ width (.bv 0 8) from (k + 1).isLt)] at h3
  -- the rule loads another word
  have hA : List.Forall₂ (Alike [0, 0, 4]) r3.ib r'.ib := by
    rw [List.forall₂_iff_get] at hib3 ⊢
    refine ⟨hib3.1.symm, fun n hk hk' => ?_⟩
    obtain ⟨g1, g2 | ⟨g2, c, c', t, m, g3, g4, _⟩⟩ := hib3.2 n hk' hk
    · exact ⟨g1.symm, .inl g2.symm⟩
    · refine ⟨g1.symm, .inr ⟨?_, c', c, g4, g3⟩⟩
      rcases could_hold g2 with h | h
      · exfalso
        have hm : ((r3.ib.get ⟨n, hk⟩).1, (r3.ib.get ⟨n, hk⟩).2) ∈ r3.ib := List.get_mem _ _
        rw [g1, h, g4] at hm
        cases uniq _ _ _ h3 hm
      · exact g1.trans h
  have hnd' : (r'.ib.map (·.2)).Nodup := by rw [(alike_paths hA).1]; exact hnd
  obtain ⟨_, _, _, e3, _⟩ := in_shape hR.arch
  have hi0 : i0 < 256 := by
    obtain ⟨inst, _, _, e, g, _⟩ := in_shape hR.arch
    simp only [inp, RVal.prod.injEq, List.cons.injEq] at e
    obtain ⟨rfl, _⟩ := e
    rcases inst_shape g with ⟨_, _, _, _, e, _⟩ | ⟨_, _, _, _, _, e, _, _, _, h, _⟩
    · cases e
    · cases e; exact h
  have hR' := related_alike hA (i' := i0) (j' := (k + 1).toNat) hi0 (k + 1).isLt (.inr ⟨rfl, rfl⟩) (by
    intro s hs
    refine ⟨c', (Prod.ext_iff.mp (List.inj_on_of_nodup_map hnd' hs m4' rfl)).1, ?_⟩
    simpa using hval) hR
  obtain ⟨t, u, v, q1, q2⟩ := hC rv _ hR' (fun _ _ => []) (fun _ _ => 0) (fun _ _ => 0) (by simp [BoxesCompute, wordIr]) (by simp [BoxesCompute, pe]) [0] [0] (by rw [← hob3]; exact h00)
  have e1 : v = k.toNat := by
    have hrv := hR.ir
    have : ∃ ws, rv = .prod ws := by
      cases rv with
      | prod ws => exact ⟨ws, rfl⟩
      | leaf n => exact hrv.elim
      | sum k v => exact hrv.elim
    obtain ⟨ws, rfl⟩ := this
    have q1 : ([0], t, v) ∈ rawLeaves (.prod 9 (.cons 0 wordT .nil)) (.prod [.leaf k.toNat]) := q1
    simp [rawLeaves, rawLeavesAll, wordT] at q1
    exact q1.2
  have e2 : v = (k + 1).toNat := by
    have q2 : ([0], u, v) ∈ rawLeaves (.prod 87 peOut) (.prod [.leaf (BitVec.ofNat 8 (k + 1).toNat).toNat, .leaf (BitVec.ofNat 8 x).toNat]) := q2
    rw [BitVec.ofNat_toNat, BitVec.setWidth_eq] at q2
    simp only [rawLeaves, rawLeavesAll, peOut, wordT, List.map_cons, List.map_nil, List.append_nil, List.cons_append, List.nil_append, List.mem_cons, Prod.mk.injEq, List.cons.injEq,
      List.not_mem_nil, or_false, and_true, true_and] at q2
    rcases q2 with ⟨_, h⟩ | ⟨h, _⟩
    · exact h
    · cases h
  rw [e1] at e2
  have := BitVec.eq_of_toNat_eq e2
  exact absurd ((BitVec.add_right_inj k).mp (show k + 0 = k + 1 by rw [← this]; simp)) (by decide)

end Peak.BPe
