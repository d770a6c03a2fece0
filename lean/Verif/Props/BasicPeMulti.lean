import Verif.Model.BasicPeMulti
import Verif.Lemmas.BasicPe
import Verif.Props.MultiMap
/-!
# C89: several instructions for the architecture of `tests/test_basic_rr.py`
-/

namespace Peak.BPe
open Peak Peak.Spec

/-- The values of a type: its bits. -/
def bitsOf (t : Ty) (v : AV) : Prop := ∃ n < 2 ^ width t, v = mkAV t n

/-- The program runs on words: `a` and `b` are the words of the registers. -/
theorem arch_word (P : Process) (enc : IEnc) (r : Bool) (m : Nat) (f : List Word → Word) {v : RVal} (hv : RHas instT v) (a b : Nat) (x : Nat → AV)
    (h0 : x 0 = mkAV instT (rawCode instT v)) (h1 : x 1 = mkAV wordT a) (h2 : x 2 = mkAV wordT b) :
    (multiProblem P.asm enc r m f).arch x 0 = .bits (BV.ofNat 8 (res v (.ofNat 8 a) (.ofNat 8 b)).toNat) ∧
    (multiProblem P.asm enc r m f).arch x 1 = .bits (BV.ofNat 8 (BitVec.ofNat 8 a).toNat) := by
  have e := call_raw P hv a b 0 1 2
  simp only [multiProblem, h0, h1, h2, e]
  exact ⟨rfl, rfl⟩

theorem words_nodup (m : Nat) : (((List.range m).map (fun i => (i, wordT))).map (·.1)).Nodup := by
  simp [List.map_map, Function.comp_def, List.nodup_range]

theorem arch_typed (P : Process) (enc : IEnc) (r : Bool) (m : Nat) (f : List Word → Word) (x : Nat → AV)
    (h : ∀ e ∈ (multiProblem P.asm enc r m f).archIn, bitsOf e.2 (x e.1)) : ∀ e ∈ (multiProblem P.asm enc r m f).archOut, bitsOf e.2 ((multiProblem P.asm enc r m f).arch x e.1) := by
  obtain ⟨n0, h0, e0⟩ := h (0, instT) (by simp [multiProblem])
  obtain ⟨n1, h1, e1⟩ := h (1, wordT) (by simp [multiProblem])
  obtain ⟨n2, h2, e2⟩ := h (2, wordT) (by simp [multiProblem])
  obtain ⟨o, ho⟩ := call_any P h0 n1 n2 0 1 2
  intro e he
  simp only [multiProblem, List.mem_cons, List.not_mem_nil, or_false] at he
  have e0' : x 0 = mkAV instT n0 := e0
  have e1' : x 1 = mkAV wordT n1 := e1
  have e2' : x 2 = mkAV wordT n2 := e2
  rcases he with rfl | rfl
  · simp only [multiProblem, e0', e1', e2', ho]
    exact ⟨_, o.isLt, rfl⟩
  · simp only [multiProblem, e0', e1', e2', ho]
    exact ⟨_, (BitVec.ofNat 8 n1).isLt, rfl⟩

theorem one_const (P : Process) (enc : IEnc) (r : Bool) (m : Nat) (f : List Word → Word) : (multiProblem P.asm enc r m f).constDict = [(0, instT)] := by
  have : (wordT == instT) = false := by decide
  simp [multiProblem, MultiPb.constDict, this]

/-- C89: `Multi` with `n` instructions of this architecture finds a correct program for a function of `m` words exactly if there is one, for either encoding, either way of passing the intermediate
results and any sound and complete solver. -/
theorem C89_multi (P : Process) (enc : IEnc) (useReal : Bool) (m : Nat) (f : List Word → Word) (n : Nat) (hn : 1 ≤ n)
    (solve : (MuAsg Nat AV → Prop) → Option (MuAsg Nat AV)) (a0 : MuAsg Nat AV) (ha0 : MuSorted (multiProblem P.asm enc useReal m f) bitsOf a0)
    (hsolve : ∀ φ a, solve φ = some a → φ a ∧ MuSorted (multiProblem P.asm enc useReal m f) bitsOf a)
    (hcomplete : ∀ φ, (∃ a, φ a ∧ MuSorted (multiProblem P.asm enc useReal m f) bitsOf a) → solve φ ≠ none) :
    ((∃ prog, MultiCorrect (multiProblem P.asm enc useReal m f) bitsOf n 0 instT prog) ↔
      ∃ r, multiSolve (multiProblem P.asm enc useReal m f) bitsOf n solve a0 = .ok (some r)) ∧
    ∀ r, multiSolve (multiProblem P.asm enc useReal m f) bitsOf n solve a0 = .ok (some r) →
      ∃ prog, r = prog.map (fun p => (p.1, [p.2])) ∧ MultiCorrect (multiProblem P.asm enc useReal m f) bitsOf n 0 instT prog := by
  have hs : ∀ r, multiSolve (multiProblem P.asm enc useReal m f) bitsOf n solve a0 = .ok (some r) →
      ∃ prog, r = prog.map (fun p => (p.1, [p.2])) ∧ MultiCorrect (multiProblem P.asm enc useReal m f) bitsOf n 0 instT prog := by
    intro r h
    obtain ⟨c, t, hc, prog, h1, h2⟩ := C54_sound_partial _ bitsOf n solve a0 (words_nodup m) (by simp [multiProblem]) (by simp [multiProblem])
      (arch_typed P enc useReal m f) (fun _ _ _ => rfl) hsolve r h
    rw [one_const] at hc
    cases hc
    exact ⟨prog, h1, h2⟩
  refine ⟨⟨?_, ?_⟩, hs⟩
  · rintro ⟨prog, h⟩
    refine C54_complete_partial _ bitsOf n solve a0 hn (words_nodup m) (by simp [multiProblem]) (by simp [multiProblem]) ?_ rfl (fun _ _ => by simp [multiProblem]) ha0 hsolve hcomplete
      0 instT (one_const P enc useReal m f) prog h
    intro e he
    simp only [multiProblem, List.mem_map] at he
    obtain ⟨i, _, rfl⟩ := he
    rfl
  · rintro ⟨r, h⟩
    obtain ⟨prog, _, h⟩ := hs r h
    exact ⟨prog, h⟩

/-- `(a + b) * c` (tests/test_basic_rr.py:94). -/
def add3 (xs : List Word) : Word := (at' xs 0 + at' xs 1) * at' xs 2

/-- An addition of the first two words, then a multiplication of its result by the third. -/
def add3Prog : List (MBdg Nat × AV) :=
  [([(some (.irIn 0), .archIn 0 1), (some (.irIn 1), .archIn 0 2)], mkAV instT (rawCode instT (rr 1 0 0 0))),
   ([(some (.archOut 0 0), .archIn 1 1), (some (.irIn 2), .archIn 1 2)], mkAV instT (rawCode instT (rr 2 0 0 0)))]

theorem word_of {v : AV} (h : bitsOf wordT v) : ∃ n < 256, v = mkAV wordT n := h

theorem add3_correct (P : Process) (hP : MildProcess P) (enc : IEnc) (r : Bool) : MultiCorrect (multiProblem P.asm enc r 3 add3) bitsOf 2 0 instT add3Prog := by
  have hw : (multiProblem P.asm enc r 3 add3).nonConst = [(1, wordT), (2, wordT)] := by
    have : (wordT == instT) = false := by decide
    simp [multiProblem, MultiPb.nonConst, this]
  have hir : (multiProblem P.asm enc r 3 add3).irIn = [(0, wordT), (1, wordT), (2, wordT)] := rfl
  have hao : (multiProblem P.asm enc r 3 add3).archOut = [(0, wordT), (1, wordT)] := rfl
  refine ⟨⟨rfl, ?_, ?_⟩, ?_, ?_⟩
  · intro i b hb
    refine (Mul.blockBinding_iff _ _ _ i b).mp ?_
    rw [hw, hir, hao]
    match i, hb with
    | 0, hb =>
      have := Option.some.inj hb
      subst this
      refine .cons ⟨rfl, .inr ⟨_, rfl, ?_⟩⟩ (.cons ⟨rfl, .inr ⟨_, rfl, ?_⟩⟩ .nil) <;> simp [multiInputs]
    | 1, hb =>
      have := Option.some.inj hb
      subst this
      refine .cons ⟨rfl, .inr ⟨_, rfl, ?_⟩⟩ (.cons ⟨rfl, .inr ⟨_, rfl, ?_⟩⟩ .nil) <;> simp [multiInputs]
  · intro g t hg
    rw [hir] at hg
    simp only [List.mem_cons, List.not_mem_nil, or_false, Prod.mk.injEq] at hg
    rcases hg with ⟨rfl, _⟩ | ⟨rfl, _⟩ | ⟨rfl, _⟩ <;> simp [add3Prog]
  · intro p hp
    simp only [add3Prog, List.mem_cons, List.not_mem_nil, or_false] at hp
    have l4 : 0 < 4 := by decide
    rcases hp with rfl | rfl
    · refine ⟨?_, _, SB.code_lt _ _ inst_wf (rr_has (by decide) l4 l4 l4), rfl⟩
      simp only [multiProblem, (rr_valid hP (op := 1) (by decide) l4 l4 l4).mpr (.inl rfl)]
      rfl
    · refine ⟨?_, _, SB.code_lt _ _ inst_wf (rr_has (by decide) l4 l4 l4), rfl⟩
      simp only [multiProblem, (rr_valid hP (op := 2) (by decide) l4 l4 l4).mpr (.inr rfl)]
      rfl
  · refine ⟨[(some (.archOut 1 0), .irOut 0)], ?_, ?_⟩
    · refine .cons ⟨rfl, .inr ⟨_, rfl, ?_⟩⟩ .nil
      rw [hao]
      simp
    · intro β x u hx _
      refine ⟨_, rfl, ?_⟩
      intro h g hm
      have hm := List.mem_singleton.mp hm
      cases hm
      obtain ⟨a, ha, ea⟩ := word_of (hx (0, wordT) (by rw [hir]; simp))
      obtain ⟨b, hb, eb⟩ := word_of (hx (1, wordT) (by rw [hir]; simp))
      obtain ⟨c, hc, ec⟩ := word_of (hx (2, wordT) (by rw [hir]; simp))
      simp only at ea eb ec
      have l4 : 0 < 4 := by decide
      have s1 := arch_word P enc r 3 add3 (v := rr 1 0 0 0) (rr_has (by decide) l4 l4 l4) a b
        (blockIn 0 x (u 0) [] 0 [(some (.irIn 0), .archIn 0 1), (some (.irIn 1), .archIn 0 2)] (mkAV instT (rawCode instT (rr 1 0 0 0))))
        rfl ea eb
      have s2 := arch_word P enc r 3 add3 (v := rr 2 0 0 0) (rr_has (by decide) l4 l4 l4) (BitVec.ofNat 8 a + BitVec.ofNat 8 b).toNat c
        (blockIn 0 x (u 1) [(multiProblem P.asm enc r 3 add3).arch
          (blockIn 0 x (u 0) [] 0 [(some (.irIn 0), .archIn 0 1), (some (.irIn 1), .archIn 0 2)] (mkAV instT (rawCode instT (rr 1 0 0 0))))] 1
          [(some (.archOut 0 0), .archIn 1 1), (some (.irIn 2), .archIn 1 2)] (mkAV instT (rawCode instT (rr 2 0 0 0))))
        rfl s1.1 ec
      refine s2.1.trans ?_
      have hwd : ∀ n, n < 256 → wordOf 8 (mkAV wordT n) = BitVec.ofNat 8 n := by
        intro n hn
        simp [wordT, mkAV, wordOf, BV.ofNat, Nat.mod_eq_of_lt hn]
      simp only [multiProblem, List.range, List.range.loop, List.map_cons, List.map_nil, ea, eb, ec, hwd a ha, hwd b hb, hwd c hc, add3, at']
      simp [rr, res]

/-- C89: what `test_multi` checks (tests/test_basic_rr.py:98-102): two instructions are found for `(a + b) * c`, and whatever two instructions are returned compute it. -/
theorem C89_test_multi (P : Process) (hP : MildProcess P) (enc : IEnc) (useReal : Bool)
    (solve : (MuAsg Nat AV → Prop) → Option (MuAsg Nat AV)) (a0 : MuAsg Nat AV) (ha0 : MuSorted (multiProblem P.asm enc useReal 3 add3) bitsOf a0)
    (hsolve : ∀ φ a, solve φ = some a → φ a ∧ MuSorted (multiProblem P.asm enc useReal 3 add3) bitsOf a)
    (hcomplete : ∀ φ, (∃ a, φ a ∧ MuSorted (multiProblem P.asm enc useReal 3 add3) bitsOf a) → solve φ ≠ none) :
    ∃ prog, multiSolve (multiProblem P.asm enc useReal 3 add3) bitsOf 2 solve a0 = .ok (some (prog.map (fun p => (p.1, [p.2])))) ∧
      MultiCorrect (multiProblem P.asm enc useReal 3 add3) bitsOf 2 0 instT prog := by
  obtain ⟨h1, h2⟩ := C89_multi P enc useReal 3 add3 2 (by decide) solve a0 ha0 hsolve hcomplete
  obtain ⟨r, hr⟩ := h1.mp ⟨_, add3_correct P hP enc useReal⟩
  obtain ⟨prog, rfl, hc⟩ := h2 r hr
  exact ⟨prog, hr, hc⟩

/-- One instruction is not enough for a function of three words, whatever the function. -/
theorem one_too_few (P : Process) (enc : IEnc) (r : Bool) (f : List Word → Word) (prog : List (MBdg Nat × AV)) :
    ¬ MultiCorrect (multiProblem P.asm enc r 3 f) bitsOf 1 0 instT prog := by
  intro h
  have hw : (multiProblem P.asm enc r 3 f).nonConst = [(1, wordT), (2, wordT)] := by
    have : (wordT == instT) = false := by decide
    simp [multiProblem, MultiPb.nonConst, this]
  have hl : prog.length = 1 := by have := h.wiring.len; simpa using this
  match prog, hl with
  | [p], _ =>
    have hb := (Mul.blockBinding_iff _ _ _ 0 p.1).mpr (h.wiring.block 0 p.1 rfl)
    have hlen := hb.length_eq
    rw [hw] at hlen
    have hu : ∀ g, g < 3 → ∃ o, (some (.irIn g), o) ∈ p.1 := by
      intro g hg
      have := h.wiring.once g wordT (by simpa [multiProblem] using hg)
      have hpos : 0 < (([p].map (·.1)).flatten.map (·.1)).count (some (.irIn g)) := by rw [this]; decide
      have := List.count_pos_iff.mp hpos
      simpa using this
    have hsub : [MPath.irIn (F := Nat) 0, .irIn 1, .irIn 2] ⊆ p.1.filterMap (·.1) := by
      intro s hs
      simp only [List.mem_cons, List.not_mem_nil, or_false] at hs
      rw [List.mem_filterMap]
      rcases hs with rfl | rfl | rfl
      · obtain ⟨o, ho⟩ := hu 0 (by decide)
        exact ⟨_, ho, rfl⟩
      · obtain ⟨o, ho⟩ := hu 1 (by decide)
        exact ⟨_, ho, rfl⟩
      · obtain ⟨o, ho⟩ := hu 2 (by decide)
        exact ⟨_, ho, rfl⟩
    have hnd : [MPath.irIn (F := Nat) 0, .irIn 1, .irIn 2].Nodup := by decide
    have h3 := (hnd.subperm hsub).length_le
    have h4 : (p.1.filterMap (·.1)).length ≤ p.1.length := List.length_filterMap_le _ _
    have h5 : p.1.length = 2 := by simpa [multiOutputs] using hlen
    simp only [List.length_cons, List.length_nil] at h3
    omega

/-- With one instruction nothing is returned for `(a + b) * c`. -/
example (P : Process) (enc : IEnc) (useReal : Bool)
    (solve : (MuAsg Nat AV → Prop) → Option (MuAsg Nat AV)) (a0 : MuAsg Nat AV) (ha0 : MuSorted (multiProblem P.asm enc useReal 3 add3) bitsOf a0)
    (hsolve : ∀ φ a, solve φ = some a → φ a ∧ MuSorted (multiProblem P.asm enc useReal 3 add3) bitsOf a)
    (hcomplete : ∀ φ, (∃ a, φ a ∧ MuSorted (multiProblem P.asm enc useReal 3 add3) bitsOf a) → solve φ ≠ none) :
    ¬ ∃ r, multiSolve (multiProblem P.asm enc useReal 3 add3) bitsOf 1 solve a0 = .ok (some r) := by
  rw [← (C89_multi P enc useReal 3 add3 1 (by decide) solve a0 ha0 hsolve hcomplete).1]
  rintro ⟨prog, h⟩
  exact one_too_few P enc useReal add3 prog h

/-- Such solvers and an initial assignment exist. -/
example (P : Process) (hP : MildProcess P) (enc : IEnc) (useReal : Bool) : ∃ r, multiSolve (multiProblem P.asm enc useReal 3 add3) bitsOf 2
    (Mu.someSolve (multiProblem P.asm enc useReal 3 add3) bitsOf) ⟨0, 0, fun _ => mkAV wordT 0, fun _ g => mkAV (if g = 0 then instT else wordT) 0, fun _ _ => mkAV wordT 0, fun _ => .bit false⟩ =
      .ok (some r) := by
  obtain ⟨prog, h, _⟩ := C89_test_multi P hP enc useReal (Mu.someSolve (multiProblem P.asm enc useReal 3 add3) bitsOf)
    ⟨0, 0, fun _ => mkAV wordT 0, fun _ g => mkAV (if g = 0 then instT else wordT) 0, fun _ _ => mkAV wordT 0, fun _ => .bit false⟩
    ⟨by
      intro e he
      simp only [multiProblem, List.mem_map] at he
      obtain ⟨i, _, rfl⟩ := he
      exact ⟨0, Nat.two_pow_pos _, rfl⟩, by
      intro i e he
      simp only [multiProblem, List.mem_cons, List.not_mem_nil, or_false] at he
      rcases he with rfl | rfl | rfl
      · exact ⟨0, Nat.two_pow_pos _, rfl⟩
      · exact ⟨0, Nat.two_pow_pos _, rfl⟩
      · exact ⟨0, Nat.two_pow_pos _, rfl⟩, by
      intro i e he
      simp only [multiProblem, List.mem_cons, List.not_mem_nil, or_false] at he
      rcases he with rfl | rfl
      · exact ⟨0, Nat.two_pow_pos _, rfl⟩
      · exact ⟨0, Nat.two_pow_pos _, rfl⟩⟩
    (Mu.someSolve_sound _ _) (Mu.someSolve_complete _ _)
  exact ⟨_, h⟩

end Peak.BPe
