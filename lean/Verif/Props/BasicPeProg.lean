import Verif.Spec.BasicPeMulti
import Verif.Props.BasicPeMulti
import Mathlib.Data.List.Count
/-!
# C89 on words
-/

namespace Peak.BPe
open Peak Peak.Spec

/-- A word as the value of a variable. -/
def wd (w : Word) : AV := .bits (BV.ofNat 8 w.toNat)

theorem wd_of {v : AV} (h : bitsOf wordT v) : v = wd (wordOf 8 v) := by
  obtain ⟨n, hn, rfl⟩ := word_of h
  simp [wordT, mkAV, wordOf, BV.ofNat, wd, Nat.mod_eq_of_lt hn]

theorem wd_bits (w : Word) : bitsOf wordT (wd w) := ⟨w.toNat, w.isLt, rfl⟩

theorem wd_word (w : Word) : wordOf 8 (wd w) = w := by
  have h : w.toNat % 256 = w.toNat := Nat.mod_eq_of_lt w.isLt
  simp [wordOf, BV.ofNat, wd, h]

theorem wd_inj {a b : Word} (h : wd a = wd b) : a = b := by
  have := congrArg (wordOf 8) h
  rwa [wd_word, wd_word] at this

variable (arch : (Nat → AV) → Nat → AV)

/-- The instruction does what the operation says. -/
def Does (v : AV) (op : WOp) : Prop :=
  ∀ (x : Nat → AV) (a b : Word), x 0 = v → x 1 = wd a → x 2 = wd b → arch x 0 = wd (op.run a b) ∧ arch x 1 = wd a

def Src.path : Src → Option (MPath Nat)
  | .arg k => some (.irIn k)
  | .out j s => some (.archOut j (if s then 1 else 0))
  | .free => none

theorem path_inj : Function.Injective Src.path := by
  intro s t h
  match s, t with
  | .arg k, .arg k' => simpa [Src.path] using h
  | .arg k, .out _ _ => simp [Src.path] at h
  | .arg k, .free => simp [Src.path] at h
  | .out _ _, .arg k => simp [Src.path] at h
  | .free, .arg k => simp [Src.path] at h
  | .out _ _, .free => simp [Src.path] at h
  | .free, .out _ _ => simp [Src.path] at h
  | .free, .free => rfl
  | .out j s, .out j' s' =>
    cases s <;> cases s' <;> simp [Src.path] at h <;> simp [h]

/-- Instruction `i` of the two programs is the same. -/
def SameIns (i : Nat) (p : MBdg Nat × AV) (q : Ins) : Prop :=
  p.1 = [(q.r0.path, .archIn i 1), (q.r1.path, .archIn i 2)] ∧ Does arch p.2 q.op

def SameFrom : Nat → List (MBdg Nat × AV) → List Ins → Prop
  | _, [], [] => True
  | i, p :: ps, q :: qs => SameIns arch i p q ∧ SameFrom (i + 1) ps qs
  | _, _, _ => False

variable {arch}

theorem same_length : ∀ {i : Nat} {prog : List (MBdg Nat × AV)} {w : List Ins}, SameFrom arch i prog w → prog.length = w.length
  | _, [], [], _ => rfl
  | _, _ :: _, _ :: _, h => congrArg (· + 1) (same_length h.2)
  | _, [], _ :: _, h => h.elim
  | _, _ :: _, [], h => h.elim

theorem same_get : ∀ {i : Nat} {prog : List (MBdg Nat × AV)} {w : List Ins}, SameFrom arch i prog w → ∀ (k : Nat) p q, prog[k]? = some p → w[k]? = some q → SameIns arch (i + k) p q
  | _, [], [], _, _, _, _, hp, _ => by simp at hp
  | _, [], _ :: _, h, _, _, _, _, _ => h.elim
  | _, _ :: _, [], h, _, _, _, _, _ => h.elim
  | i, _ :: _, _ :: _, h, 0, p, q, hp, hq => by
    simp only [List.getElem?_cons_zero, Option.some.injEq] at hp hq
    rw [← hp, ← hq]
    exact h.1
  | i, _ :: ps, _ :: qs, h, k + 1, p, q, hp, hq => by
    have := same_get h.2 k p q (by simpa using hp) (by simpa using hq)
    rwa [Nat.add_right_comm, Nat.add_assoc] at this

theorem same_of : ∀ {i : Nat} {prog : List (MBdg Nat × AV)}, (∀ (k : Nat) p, prog[k]? = some p → ∃ q, SameIns arch (i + k) p q) → ∃ w, SameFrom arch i prog w
  | _, [], _ => ⟨[], trivial⟩
  | i, p :: ps, h => by
    obtain ⟨q, hq⟩ := h 0 p rfl
    obtain ⟨w, hw⟩ := same_of (i := i + 1) (prog := ps) (by
      intro k p' hp
      obtain ⟨q, hq⟩ := h (k + 1) p' (by simpa using hp)
      exact ⟨q, by rwa [Nat.add_right_comm, Nat.add_assoc]⟩)
    exact ⟨q :: w, hq, hw⟩

theorem same_of' {G : AV → Prop} : ∀ {i : Nat} {w : List Ins}, (∀ q ∈ w, ∃ v, G v ∧ Does arch v q.op) → ∃ prog, SameFrom arch i prog w ∧ ∀ p ∈ prog, G p.2
  | _, [], _ => ⟨[], trivial, by simp⟩
  | i, q :: w, h => by
    obtain ⟨v, hg, hv⟩ := h q List.mem_cons_self
    obtain ⟨prog, hp, hG⟩ := same_of' (i := i + 1) (w := w) (fun q' hq => h q' (List.mem_cons_of_mem _ hq))
    refine ⟨(_, v) :: prog, ⟨⟨rfl, hv⟩, hp⟩, ?_⟩
    intro p hp
    rcases List.mem_cons.mp hp with rfl | hp
    · exact hg
    · exact hG p hp

theorem same_flat : ∀ {i : Nat} {prog : List (MBdg Nat × AV)} {w : List Ins}, SameFrom arch i prog w →
    ((prog.map (·.1)).flatten.map (·.1)) = (w.flatMap (fun p => [p.r0, p.r1])).map Src.path
  | _, [], [], _ => rfl
  | _, [], _ :: _, h => h.elim
  | _, _ :: _, [], h => h.elim
  | i, p :: ps, q :: qs, h => by
    simp only [List.map_cons, List.flatten_cons, List.map_append, List.flatMap_cons, same_flat h.2, h.1.1, List.map_nil]

theorem find_first (i : Nat) (s0 s1 : Option (MPath Nat)) :
    [(s0, MPath.archIn i 1), (s1, .archIn i 2)].find? (fun e => e.2 == .archIn i 1) = some (s0, .archIn i 1) ∧
    [(s0, MPath.archIn i 1), (s1, .archIn i 2)].find? (fun e => e.2 == .archIn i 2) = some (s1, .archIn i 2) := by
  have h : (MPath.archIn i 1 == MPath.archIn (F := Nat) i 2) = false := by simp
  simp [List.find?, h]

/-- The outputs are the same. -/
def SameOuts (outs : List (Nat → AV)) (w : List (Word × Word)) : Prop := List.Forall₂ (fun o p => o 0 = wd p.1 ∧ o 1 = wd p.2) outs w

theorem outs_get {outs : List (Nat → AV)} {w : List (Word × Word)} (h : SameOuts outs w) (j : Nat) (s : Bool) (v : AV) (z : Word) (hv : v = wd z) :
    (match outs[j]? with | some o => o (if s then 1 else 0) | none => v) = wd (match w[j]? with | some o => port s o | none => z) := by
  by_cases hj : j < outs.length
  · have hj' : j < w.length := by rw [← h.length_eq]; exact hj
    rw [List.getElem?_eq_getElem hj, List.getElem?_eq_getElem hj']
    have := h.get hj hj'
    simp only [List.get_eq_getElem] at this
    cases s
    · simpa [port] using this.1
    · simpa [port] using this.2
  · have hj' : ¬ j < w.length := by rw [← h.length_eq]; exact hj
    rw [List.getElem?_eq_none (by omega), List.getElem?_eq_none (by omega)]
    exact hv

theorem same_run {m : Nat} {x : Nat → AV} {xs : Nat → Word} {u : Nat → Nat → AV} {u' : Nat → Word × Word} (hx : ∀ k, k < m → x k = wd (xs k))
    (hu : ∀ i, u i 1 = wd (u' i).1 ∧ u i 2 = wd (u' i).2) :
    ∀ {prog : List (MBdg Nat × AV)} {w : List Ins} {outs : List (Nat → AV)} {wo : List (Word × Word)}, (∀ p ∈ w, ∀ k, p.r0 = .arg k ∨ p.r1 = .arg k → k < m) →
      SameFrom arch outs.length prog w → SameOuts outs wo → SameOuts (execMulti arch 0 x u prog outs) (runProg xs u' w wo)
  | [], [], _, _, _, _, ho => ho
  | [], _ :: _, _, _, _, h, _ => h.elim
  | _ :: _, [], _, _, _, h, _ => h.elim
  | (b, v) :: ps, q :: qs, outs, wo, ha, h, ho => by
    have hlen := ho.length_eq
    obtain ⟨⟨hb, hd⟩, hrest⟩ := h
    simp only at hb hd
    obtain ⟨f1, f2⟩ := find_first outs.length q.r0.path q.r1.path
    rw [← hb] at f1 f2
    have hsrc : ∀ (f : Nat) (s : Src) (z : Word), f ≠ 0 → b.find? (fun e => e.2 == .archIn outs.length f) = some (s.path, .archIn outs.length f) →
        (∀ k, s = .arg k → k < m) → u outs.length f = wd z → blockIn 0 x (u outs.length) outs outs.length b v f = wd (s.word xs wo z) := by
      intro f s z hf hfind hk hz
      unfold blockIn
      rw [if_neg hf, hfind]
      match s with
      | .arg k => exact hx k (hk k rfl)
      | .free => exact hz
      | .out j t =>
        have hg := outs_get ho j t _ _ hz
        simp only [Src.path, Src.word]
        cases h1 : outs[j]? <;> cases h2 : wo[j]? <;> simp only [h1, h2] at hg ⊢ <;> exact hg
    have e1 := hsrc 1 q.r0 _ (by decide) f1 (fun k hk => ha q List.mem_cons_self k (.inl hk)) (hu _).1
    have e2 := hsrc 2 q.r1 _ (by decide) f2 (fun k hk => ha q List.mem_cons_self k (.inr hk)) (hu _).2
    have hstep := hd (blockIn 0 x (u outs.length) outs outs.length b v) _ _ (by simp [blockIn]) e1 e2
    simp only [execMulti, runProg]
    refine same_run hx hu (fun p hp => ha p (List.mem_cons_of_mem _ hp)) ?_ ?_
    · simpa using hrest
    · rw [← hlen]
      exact List.rel_append ho (.cons hstep .nil)

/-! ## instructions -/

theorem does_any (P : Process) (enc : IEnc) (r : Bool) (m : Nat) (f : List Word → Word) {v : AV} (h : bitsOf instT v) : ∃ op, Does (multiProblem P.asm enc r m f).arch v op := by
  obtain ⟨n, hn, rfl⟩ := h
  obtain ⟨m1, v1, hv1, e1⟩ := RG.option_any P inst_wf hn opts_mem.2
  obtain ⟨m0, v0, hv0, e0⟩ := RG.option_any P inst_wf hn opts_mem.1
  obtain ⟨o1, ho1, g1⟩ := rr_any P hv1
  obtain ⟨o0, ho0, i, hi, g0, gi⟩ := ri_any P hv0
  rw [← instT] at e1 e0
  have key : ∀ (x : Nat → AV) (a b : Word), x 0 = mkAV instT n → x 1 = wd a → x 2 = wd b →
      peCall P.asm [(0, x 0), (1, x 1), (2, x 2)] =
        .ok [wd (if m1 then (if o1 == 2 then a * b else a + b) else (if o0 == 3 then .ofNat 8 i else a + .ofNat 8 i)), wd a] := by
    intro x a b h0 h1 h2
    have hi' : wordOf 8 (mkAV wordT i) = BitVec.ofNat 8 i := by
      simp only [mkAV, wordT, CPe.wordOf_bits]
    simp only [peCall, bind, Except.bind, h0, h1, h2, e1, e0, g1, g0, gi, mul_code P ho1, ld_code P ho0, wd_word, hi']
    rfl
  refine ⟨if m1 then (if o1 == 2 then .mul else .add) else (if o0 == 3 then .ld (.ofNat 8 i) else .addi (.ofNat 8 i)), ?_⟩
  intro x a b h0 h1 h2
  simp only [multiProblem, key x a b h0 h1 h2]
  refine ⟨?_, rfl⟩
  cases m1 <;> cases o1 == 2 <;> cases o0 == 3 <;> rfl

/-- The instruction of an operation. -/
def insOf : WOp → RVal
  | .add => rr 1 0 0 0
  | .mul => rr 2 0 0 0
  | .ld k => ri 3 0 0 0 k.toNat
  | .addi k => ri 4 0 0 0 k.toNat

theorem does_op (P : Process) (hP : MildProcess P) (enc : IEnc) (r : Bool) (m : Nat) (f : List Word → Word) (op : WOp) :
    ∃ v, ((multiProblem P.asm enc r m f).isValid v = true ∧ bitsOf instT v) ∧ Does (multiProblem P.asm enc r m f).arch v op := by
  have l4 : 0 < 4 := by decide
  have hh : RHas instT (insOf op) := by
    cases op with
    | add => exact rr_has (by decide) l4 l4 l4
    | mul => exact rr_has (by decide) l4 l4 l4
    | ld k => exact ri_has (by decide) l4 l4 (by decide) k.isLt
    | addi k => exact ri_has (by decide) l4 l4 (by decide) k.isLt
  have hv : isValidAV P.asm (mkAV instT (rawCode instT (insOf op))) = .ok true := by
    cases op with
    | add => exact (rr_valid hP (by decide) l4 l4 l4).mpr (.inl rfl)
    | mul => exact (rr_valid hP (by decide) l4 l4 l4).mpr (.inr rfl)
    | ld k => exact (ri_valid hP (by decide) l4 l4 (by decide) k.isLt).mpr (.inl rfl)
    | addi k => exact (ri_valid hP (by decide) l4 l4 (by decide) k.isLt).mpr (.inr rfl)
  refine ⟨_, ⟨?_, _, SB.code_lt _ _ inst_wf hh, rfl⟩, ?_⟩
  · simp only [multiProblem, hv]
    rfl
  · intro x a b h0 h1 h2
    obtain ⟨e1, e2⟩ := arch_word P enc r m f hh a.toNat b.toNat x h0 h1 h2
    rw [e1, e2]
    have hr : res (insOf op) (.ofNat 8 a.toNat) (.ofNat 8 b.toNat) = op.run a b := by
      simp only [BitVec.ofNat_toNat, BitVec.setWidth_eq]
      cases op <;> simp [insOf, rr, ri, res, WOp.run]
    rw [hr]
    refine ⟨rfl, ?_⟩
    simp [wd]

/-! ## wiring -/

theorem data_ports (P : Process) (enc : IEnc) (r : Bool) (m : Nat) (f : List Word → Word) : (multiProblem P.asm enc r m f).nonConst = [(1, wordT), (2, wordT)] := by
  have : (wordT == instT) = false := by decide
  simp [multiProblem, MultiPb.nonConst, this]

theorem src_of {P : Process} {enc : IEnc} {r : Bool} {m : Nat} {f : List Word → Word} {i k : Nat} {s : Option (MPath Nat)}
    (h : ∀ src, s = some src → ∃ g t, [(1, wordT), (2, wordT)][k]? = some ((g, t) : Nat × Ty) ∧
      ((∃ g, src = .irIn g ∧ (g, t) ∈ (multiProblem P.asm enc r m f).irIn) ∨ ∃ j g, j < i ∧ src = .archOut j g ∧ (g, t) ∈ (multiProblem P.asm enc r m f).archOut)) :
    ∃ q : Src, s = q.path := by
  cases s with
  | none => exact ⟨.free, rfl⟩
  | some src =>
    obtain ⟨_, _, _, ⟨g, rfl, _⟩ | ⟨j, g, _, rfl, hg⟩⟩ := h src rfl
    · exact ⟨.arg g, rfl⟩
    · simp only [multiProblem, List.mem_cons, Prod.mk.injEq, List.not_mem_nil, or_false] at hg
      rcases hg with ⟨rfl, _⟩ | ⟨rfl, _⟩
      · exact ⟨.out j false, rfl⟩
      · exact ⟨.out j true, rfl⟩

theorem ins_of {P : Process} {enc : IEnc} {r : Bool} {m : Nat} {f : List Word → Word} {n : Nat} {prog : List (MBdg Nat × AV)}
    (hc : MultiCorrect (multiProblem P.asm enc r m f) bitsOf n 0 instT prog) : ∃ w, SameFrom (multiProblem P.asm enc r m f).arch 0 prog w := by
  refine same_of ?_
  intro k p hp
  rw [Nat.zero_add]
  obtain ⟨op, hop⟩ := does_any P enc r m f (hc.valid p (List.mem_of_getElem? hp)).2
  obtain ⟨h1, h2⟩ := hc.wiring.block k p.1 (by rw [List.getElem?_map, hp]; rfl)
  rw [data_ports] at h1 h2
  obtain ⟨b, v⟩ := p
  match b, h1 with
  | [(s0, t0), (s1, t1)], h1 =>
    simp only [List.map_cons, List.map_nil, List.cons.injEq, and_true] at h1
    obtain ⟨rfl, rfl⟩ := h1
    obtain ⟨q0, rfl⟩ := src_of (h2 0 (s0, .archIn k 1) rfl)
    obtain ⟨q1, rfl⟩ := src_of (h2 1 (s1, .archIn k 2) rfl)
    exact ⟨⟨op, q0, q1⟩, rfl, hop⟩

theorem wiring_iff {P : Process} {enc : IEnc} {r : Bool} {m : Nat} {f : List Word → Word} {n : Nat} {prog : List (MBdg Nat × AV)} {w : List Ins}
    (h : SameFrom (multiProblem P.asm enc r m f).arch 0 prog w) :
    IsMulti (multiProblem P.asm enc r m f).irIn (multiProblem P.asm enc r m f).archOut (multiProblem P.asm enc r m f).nonConst n (prog.map (·.1)) ↔ IsProgram m n w := by
  have hlen := same_length h
  have hcount : ∀ k : Nat, ((prog.map (·.1)).flatten.map (·.1)).count (some (.irIn k)) = (w.flatMap (fun p => [p.r0, p.r1])).count (.arg k) := by
    intro k
    rw [same_flat h]
    exact List.count_map_of_injective _ _ path_inj (.arg k)
  have hin : ∀ (g : Nat) (t : Ty), (g, t) ∈ (multiProblem P.asm enc r m f).irIn ↔ g < m ∧ t = wordT := by
    intro g t
    simp only [multiProblem, List.mem_map, List.mem_range, Prod.mk.injEq]
    constructor
    · rintro ⟨a, ha, rfl, rfl⟩
      exact ⟨ha, rfl⟩
    · rintro ⟨h, rfl⟩
      exact ⟨g, h, rfl, rfl⟩
  have hout : ∀ s : Bool, ((if s then 1 else 0 : Nat), wordT) ∈ (multiProblem P.asm enc r m f).archOut := by
    intro s
    cases s <;> simp [multiProblem]
  constructor
  · intro hI
    have hsrc : ∀ (i : Nat) q, w[i]? = some q → ∀ s, q.r0 = s ∨ q.r1 = s → ∀ src, s.path = some src → (∃ g, src = .irIn g ∧ g < m) ∨ ∃ j g, j < i ∧ src = .archOut j g := by
      intro i q hq s hs src hsr
      have hi : i < prog.length := by
        rw [hlen]
        exact (List.getElem?_eq_some_iff.mp hq).1
      have hp := List.getElem?_eq_getElem hi
      have hsame := same_get h i _ q hp hq
      rw [Nat.zero_add] at hsame
      obtain ⟨_, h2⟩ := hI.block i prog[i].1 (by rw [List.getElem?_map, hp]; rfl)
      rw [hsame.1] at h2
      rcases hs with rfl | rfl
      · obtain ⟨_, t, _, ⟨g, e, hg⟩ | ⟨j, g, hj, e, _⟩⟩ := h2 0 _ rfl src hsr
        · exact .inl ⟨g, e, ((hin _ _).mp hg).1⟩
        · exact .inr ⟨j, g, hj, e⟩
      · obtain ⟨_, t, _, ⟨g, e, hg⟩ | ⟨j, g, hj, e, _⟩⟩ := h2 1 _ rfl src hsr
        · exact .inl ⟨g, e, ((hin _ _).mp hg).1⟩
        · exact .inr ⟨j, g, hj, e⟩
    refine ⟨?_, ?_, ?_, ?_⟩
    · rw [← hlen]
      simpa using hI.len
    · intro p hp k hk
      obtain ⟨i, hi⟩ := List.getElem?_of_mem hp
      rcases hsrc i p hi (.arg k) hk _ rfl with ⟨g, e, hg⟩ | ⟨j, g, _, e⟩
      · cases e
        exact hg
      · cases e
    · intro i p hp j s hs
      rcases hsrc i p hp (.out j s) hs _ rfl with ⟨g, e, hg⟩ | ⟨j', g, hj, e⟩
      · cases e
      · cases e
        exact hj
    · intro k hk
      rw [← hcount]
      exact hI.once k wordT ((hin _ _).mpr ⟨hk, rfl⟩)
  · intro hI
    refine ⟨?_, ?_, ?_⟩
    · rw [List.length_map, hlen]
      exact hI.len
    · intro i b hb
      rw [data_ports]
      rw [List.getElem?_map] at hb
      obtain ⟨p, hp, rfl⟩ := Option.map_eq_some_iff.mp hb
      have hi : i < w.length := by
        rw [← hlen]
        exact (List.getElem?_eq_some_iff.mp hp).1
      have hq := List.getElem?_eq_getElem hi
      have hsame := same_get h i p _ hp hq
      rw [Nat.zero_add] at hsame
      rw [hsame.1]
      refine ⟨rfl, ?_⟩
      have hsrc : ∀ s : Src, w[i].r0 = s ∨ w[i].r1 = s → ∀ src, s.path = some src →
          ((∃ g, src = .irIn g ∧ (g, wordT) ∈ (multiProblem P.asm enc r m f).irIn) ∨ ∃ j g, j < i ∧ src = .archOut j g ∧ (g, wordT) ∈ (multiProblem P.asm enc r m f).archOut) := by
        intro s hs src e
        match s with
        | .arg k =>
          cases e
          exact .inl ⟨k, rfl, (hin _ _).mpr ⟨hI.args _ (List.getElem_mem hi) k hs, rfl⟩⟩
        | .out j t =>
          cases e
          exact .inr ⟨j, _, hI.earlier i _ hq j t hs, rfl, hout t⟩
        | .free => cases e
      intro k e he src hsrc'
      match k with
      | 0 =>
        simp only [List.getElem?_cons_zero, Option.some.injEq] at he
        subst he
        exact ⟨1, wordT, rfl, hsrc _ (.inl rfl) src hsrc'⟩
      | 1 =>
        simp only [List.getElem?_cons_succ, List.getElem?_cons_zero, Option.some.injEq] at he
        subst he
        exact ⟨2, wordT, rfl, hsrc _ (.inr rfl) src hsrc'⟩
      | k + 2 => simp at he
    · intro g t hg
      rw [hcount]
      exact hI.once g ((hin _ _).mp hg).1

/-! ## results -/

theorem last_of {outs : List (Nat → AV)} {w : List (Word × Word)} (h : SameOuts outs w) :
    (outs.getLast? = none ∧ w.getLast? = none) ∨ ∃ o p, outs.getLast? = some o ∧ w.getLast? = some p ∧ ∀ s, o (if s then 1 else 0) = wd (port s p) := by
  have hlen := h.length_eq
  by_cases h0 : outs.length = 0
  · left
    have h1 : outs = [] := List.length_eq_zero_iff.mp h0
    have h2 : w = [] := List.length_eq_zero_iff.mp (by omega)
    rw [h1, h2]
    exact ⟨rfl, rfl⟩
  · right
    have h1 : outs.length - 1 < outs.length := by omega
    have h2 : outs.length - 1 < w.length := by omega
    have := h.get h1 h2
    simp only [List.get_eq_getElem] at this
    refine ⟨outs[outs.length - 1], w[outs.length - 1], ?_, ?_, ?_⟩
    · rw [List.getLast?_eq_getElem?, List.getElem?_eq_getElem h1]
    · rw [List.getLast?_eq_getElem?, ← hlen, List.getElem?_eq_getElem h2]
    · intro s
      cases s
      · simpa [port] using this.1
      · simpa [port] using this.2

theorem computes_iff {P : Process} {enc : IEnc} {r : Bool} {m : Nat} {f : List Word → Word} {n : Nat} {prog : List (MBdg Nat × AV)} {w : List Ins}
    (h : SameFrom (multiProblem P.asm enc r m f).arch 0 prog w) (hw : IsProgram m n w) (s : Bool) (ob : MBdg Nat)
    (hob : ob = [(some (.archOut (n - 1) (if s then 1 else 0)), .irOut 0)]) :
    MultiComputes (multiProblem P.asm enc r m f) bitsOf 0 prog ob ↔
      ∀ (xs : Nat → Word) (u : Nat → Word × Word), (runProg xs u w []).getLast?.map (port s) = some (f ((List.range m).map xs)) := by
  have hl : prog.length = n := by rw [same_length h]; exact hw.len
  have hport : ∀ a b : Bool, (if a then 1 else 0 : Nat) = (if b then 1 else 0) → a = b := by decide
  constructor
  · intro hc xs u
    have hrun := same_run (arch := (multiProblem P.asm enc r m f).arch) (m := m) (x := fun k => wd (xs k)) (xs := xs) (u := fun i g => if g = 1 then wd (u i).1 else wd (u i).2) (u' := u)
      (fun _ _ => rfl) (fun i => ⟨rfl, rfl⟩) hw.args h (outs := []) (wo := []) .nil
    obtain ⟨o, ho, hoe⟩ := hc (fun _ => .bit false) (fun k => wd (xs k)) (fun i g => if g = 1 then wd (u i).1 else wd (u i).2)
      (by
        intro e he
        simp only [multiProblem, List.mem_map] at he
        obtain ⟨i, _, rfl⟩ := he
        exact wd_bits _)
      (by
        intro i e he
        rw [data_ports] at he
        simp only [List.mem_cons, List.not_mem_nil, or_false] at he
        rcases he with rfl | rfl
        · exact wd_bits _
        · exact wd_bits _)
    rcases last_of hrun with ⟨e, _⟩ | ⟨o', p, e1, e2, e3⟩
    · rw [e] at ho
      cases ho
    · rw [ho] at e1
      cases e1
      rw [e2]
      have := hoe (if s then 1 else 0) 0 (by rw [hl, hob]; exact List.mem_singleton.mpr rfl)
      rw [e3 s] at this
      have hv := wd_inj this
      simp only [Option.map_some, hv, wd_word]
  · intro hc β x u hx hu
    have hx' : ∀ k, k < m → x k = wd (wordOf 8 (x k)) := fun k hk => wd_of (hx (k, wordT) (by simp [multiProblem, hk]))
    have hu1 : ∀ i, u i 1 = wd (wordOf 8 (u i 1)) := fun i => wd_of (hu i (1, wordT) (by rw [data_ports]; simp))
    have hu2 : ∀ i, u i 2 = wd (wordOf 8 (u i 2)) := fun i => wd_of (hu i (2, wordT) (by rw [data_ports]; simp))
    have hrun := same_run (arch := (multiProblem P.asm enc r m f).arch) (m := m) (x := x) (xs := fun k => wordOf 8 (x k)) (u := u) (u' := fun i => (wordOf 8 (u i 1), wordOf 8 (u i 2)))
      hx' (fun i => ⟨hu1 i, hu2 i⟩) hw.args h (outs := []) (wo := []) .nil
    have hv := hc (fun k => wordOf 8 (x k)) (fun i => (wordOf 8 (u i 1), wordOf 8 (u i 2)))
    rcases last_of hrun with ⟨_, e⟩ | ⟨o, p, e1, e2, e3⟩
    · rw [e] at hv
      cases hv
    · refine ⟨o, e1, ?_⟩
      intro g g' hm
      rw [hob, hl] at hm
      have hm := List.mem_singleton.mp hm
      simp only [Prod.mk.injEq, Option.some.injEq, MPath.archOut.injEq, true_and, MPath.irOut.injEq] at hm
      rw [hm.1, e3 s]
      rw [e2] at hv
      simp only [Option.map_some, Option.some.injEq] at hv
      rw [hv]
      rfl

theorem output_of {P : Process} {enc : IEnc} {r : Bool} {m : Nat} {f : List Word → Word} {n : Nat} {prog : List (MBdg Nat × AV)}
    (hc : MultiCorrect (multiProblem P.asm enc r m f) bitsOf n 0 instT prog) :
    ∃ (s : Bool) (ob : MBdg Nat), ob = [(some (.archOut (n - 1) (if s then 1 else 0)), .irOut 0)] ∧ MultiComputes (multiProblem P.asm enc r m f) bitsOf 0 prog ob := by
  obtain ⟨ob, hob, hcomp⟩ := hc.computes
  have : ∃ s : Bool, ob = [(some (.archOut (n - 1) (if s then 1 else 0)), .irOut 0)] := by
    cases hob with
    | cons h1 h2 =>
      cases h2
      obtain ⟨ht, ⟨_, hf⟩ | ⟨i, hi, hm⟩⟩ := h1
      · cases hf
      · rename_i e
        simp only [multiProblem, List.map_cons, List.map_nil, List.mem_cons, List.not_mem_nil, or_false, Prod.mk.injEq] at hm
        rcases hm with ⟨rfl, _⟩ | ⟨rfl, _⟩
        · exact ⟨false, by rw [show e = (e.1, e.2) from rfl, hi, ht]; rfl⟩
        · exact ⟨true, by rw [show e = (e.1, e.2) from rfl, hi, ht]; rfl⟩
  obtain ⟨s, hs⟩ := this
  exact ⟨s, ob, hs, hcomp⟩

/-- There is a correct program on the bits of instructions exactly if there is one on words. -/
theorem correct_iff (P : Process) (hP : MildProcess P) (enc : IEnc) (r : Bool) (m : Nat) (f : List Word → Word) (n : Nat) :
    (∃ prog, MultiCorrect (multiProblem P.asm enc r m f) bitsOf n 0 instT prog) ↔ ∃ w, IsProgram m n w ∧ ProgComputes m f w := by
  constructor
  · rintro ⟨prog, hc⟩
    obtain ⟨w, hw⟩ := ins_of hc
    have hI := (wiring_iff hw).mp hc.wiring
    obtain ⟨s, ob, hs, hcomp⟩ := output_of hc
    exact ⟨w, hI, s, (computes_iff hw hI s ob hs).mp hcomp⟩
  · rintro ⟨w, hI, s, hs⟩
    obtain ⟨prog, hp, hg⟩ := same_of' (arch := (multiProblem P.asm enc r m f).arch) (i := 0) (w := w) (fun q _ => does_op P hP enc r m f q.op)
    refine ⟨prog, (wiring_iff hp).mpr hI, hg, _, ?_, (computes_iff hp hI s _ rfl).mpr hs⟩
    refine .cons ⟨rfl, .inr ⟨_, rfl, ?_⟩⟩ .nil
    cases s <;> simp [multiProblem]

/-- C89: `Multi` with `n` instructions of this architecture finds a program for a function of `m` words exactly if there is a program of `n` instructions, on words, that computes it. -/
theorem C89_found_iff (P : Process) (hP : MildProcess P) (enc : IEnc) (useReal : Bool) (m : Nat) (f : List Word → Word) (n : Nat) (hn : 1 ≤ n)
    (solve : (MuAsg Nat AV → Prop) → Option (MuAsg Nat AV)) (a0 : MuAsg Nat AV) (ha0 : MuSorted (multiProblem P.asm enc useReal m f) bitsOf a0)
    (hsolve : ∀ φ a, solve φ = some a → φ a ∧ MuSorted (multiProblem P.asm enc useReal m f) bitsOf a)
    (hcomplete : ∀ φ, (∃ a, φ a ∧ MuSorted (multiProblem P.asm enc useReal m f) bitsOf a) → solve φ ≠ none) :
    (∃ prog, IsProgram m n prog ∧ ProgComputes m f prog) ↔ ∃ r, multiSolve (multiProblem P.asm enc useReal m f) bitsOf n solve a0 = .ok (some r) := by
  rw [← correct_iff P hP enc useReal m f n]
  exact (C89_multi P enc useReal m f n hn solve a0 ha0 hsolve hcomplete).1

/-- C89: what is returned runs as a program on words that computes the function: the wires are those of `prog`, and each instruction does, on all words, what `prog` says. -/
theorem C89_returned (P : Process) (enc : IEnc) (useReal : Bool) (m : Nat) (f : List Word → Word) (n : Nat) (hn : 1 ≤ n)
    (solve : (MuAsg Nat AV → Prop) → Option (MuAsg Nat AV)) (a0 : MuAsg Nat AV) (ha0 : MuSorted (multiProblem P.asm enc useReal m f) bitsOf a0)
    (hsolve : ∀ φ a, solve φ = some a → φ a ∧ MuSorted (multiProblem P.asm enc useReal m f) bitsOf a)
    (hcomplete : ∀ φ, (∃ a, φ a ∧ MuSorted (multiProblem P.asm enc useReal m f) bitsOf a) → solve φ ≠ none)
    (r : List (MBdg Nat × List AV)) (h : multiSolve (multiProblem P.asm enc useReal m f) bitsOf n solve a0 = .ok (some r)) :
    ∃ prog : List Ins, IsProgram m n prog ∧ ProgComputes m f prog ∧ r.length = n ∧
      ∀ (i : Nat) b vs q, r[i]? = some (b, vs) → prog[i]? = some q →
        b = [(q.r0.path, .archIn i 1), (q.r1.path, .archIn i 2)] ∧
        ∃ v, vs = [v] ∧ isValidAV P.asm v = .ok true ∧
          ∀ a b : Word, peCall P.asm [(0, v), (1, wd a), (2, wd b)] = .ok [wd (q.op.run a b), wd a] := by
  obtain ⟨prog, rfl, hc⟩ := (C89_multi P enc useReal m f n hn solve a0 ha0 hsolve hcomplete).2 r h
  obtain ⟨w, hw⟩ := ins_of hc
  have hI := (wiring_iff hw).mp hc.wiring
  obtain ⟨s, ob, hob, hcomp⟩ := output_of hc
  refine ⟨w, hI, ⟨s, (computes_iff hw hI s ob hob).mp hcomp⟩, ?_, ?_⟩
  · rw [List.length_map, same_length hw]
    exact hI.len
  · intro i b vs q hi hq
    rw [List.getElem?_map] at hi
    obtain ⟨p, hp, e⟩ := Option.map_eq_some_iff.mp hi
    cases e
    have hsame := same_get hw i p q hp hq
    rw [Nat.zero_add] at hsame
    obtain ⟨hv, n0, hn0, e0⟩ := hc.valid p (List.mem_of_getElem? hp)
    refine ⟨hsame.1, p.2, rfl, ?_, ?_⟩
    · simpa [multiProblem] using hv
    · intro a b
      obtain ⟨o, ho⟩ := call_any P hn0 a.toNat b.toNat 0 1 2
      have ho' : peCall P.asm [(0, p.2), (1, wd a), (2, wd b)] = .ok [wd o, wd (.ofNat 8 a.toNat)] := by
        rw [e0]
        exact ho
      have harch : ∀ x : Nat → AV, x 0 = p.2 → x 1 = wd a → x 2 = wd b → ∀ g, (multiProblem P.asm enc useReal m f).arch x g = [wd o, wd (.ofNat 8 a.toNat)][g]?.getD (.bit false) := by
        intro x h0 h1 h2 g
        simp only [multiProblem, h0, h1, h2, ho']
      obtain ⟨d1, d2⟩ := hsame.2 (fun g => if g = 0 then p.2 else if g = 1 then wd a else wd b) a b rfl rfl rfl
      rw [harch _ rfl rfl rfl] at d1 d2
      have d1' : wd o = wd (q.op.run a b) := d1
      have d2' : wd (.ofNat 8 a.toNat) = wd a := d2
      rw [ho', d1', d2']

/-! ## some functions -/

/-- An addition, then a multiplication of its result by the third word. -/
theorem add3_program : IsProgram 3 2 [⟨.add, .arg 0, .arg 1⟩, ⟨.mul, .out 0 false, .arg 2⟩] ∧ ProgComputes 3 add3 [⟨.add, .arg 0, .arg 1⟩, ⟨.mul, .out 0 false, .arg 2⟩] := by
  refine ⟨⟨rfl, ?_, ?_, ?_⟩, false, ?_⟩
  · intro p hp k hk
    simp only [List.mem_cons, List.not_mem_nil, or_false] at hp
    rcases hp with rfl | rfl <;> simp at hk <;> omega
  · intro i p hp j s hs
    match i with
    | 0 => simp at hp; subst hp; simp at hs
    | 1 => simp at hp; subst hp; simp at hs; omega
    | i + 2 => simp at hp
  · intro k hk
    match k with
    | 0 => rfl
    | 1 => rfl
    | 2 => rfl
    | k + 3 => omega
  · intro xs u
    rfl

/-- The square of a word. -/
def square (xs : List Word) : Word := at' xs 0 * at' xs 0

/-- With one instruction, whose registers are not given the same argument, there is no program for the square. -/
theorem square_one (prog : List Ins) : ¬ (IsProgram 1 1 prog ∧ ProgComputes 1 square prog) := by
  rintro ⟨hI, s, hc⟩
  match prog, hI.len with
  | [⟨op, r0, r1⟩], _ =>
    have hsrc : ∀ r, r = r0 ∨ r = r1 → r = .arg 0 ∨ r = .free := by
      intro r hr
      cases r with
      | arg k =>
        have := hI.args _ List.mem_cons_self k (by rcases hr with h | h <;> simp [h])
        left
        congr
        omega
      | free => exact .inr rfl
      | out j t =>
        have := hI.earlier 0 _ rfl j t (by rcases hr with h | h <;> simp [h])
        omega
    have hone := hI.once 0 (by decide)
    simp only [List.flatMap_cons, List.flatMap_nil, List.append_nil] at hone
    have hval : ∀ x y z : Word, port s (op.run (r0.word (fun _ => x) [] y) (r1.word (fun _ => x) [] z), r0.word (fun _ => x) [] y) = x * x := by
      intro x y z
      have := hc (fun _ => x) (fun _ => (y, z))
      simpa [runProg, square, at'] using this
    rcases hsrc r0 (.inl rfl) with rfl | rfl <;> rcases hsrc r1 (.inr rfl) with rfl | rfl
    · simp at hone
    · simp only [Src.word] at hval
      cases s with
      | true =>
        have h : (2 : Word) = 2 * 2 := hval 2 0 0
        exact absurd h (by decide)
      | false =>
        cases op with
        | add => exact absurd (hval 0 0 1) (by decide)
        | mul => exact absurd (hval 1 0 0) (by decide)
        | ld k =>
          have h0 : k = 0 * 0 := hval 0 0 0
          have h1 : k = 1 * 1 := hval 1 0 0
          rw [h0] at h1
          exact absurd h1 (by decide)
        | addi k =>
          have h0 : 0 + k = 0 * 0 := hval 0 0 0
          have h1 : 2 + k = 2 * 2 := hval 2 0 0
          have : k = 0 := by simpa using h0
          rw [this] at h1
          exact absurd h1 (by decide)
    · simp only [Src.word] at hval
      cases s with
      | true =>
        have h : (1 : Word) = 0 * 0 := hval 0 1 0
        exact absurd h (by decide)
      | false =>
        cases op with
        | add => exact absurd (hval 0 1 0) (by decide)
        | mul => exact absurd (hval 1 0 0) (by decide)
        | ld k =>
          have h0 : k = 0 * 0 := hval 0 0 0
          have h1 : k = 1 * 1 := hval 1 0 0
          rw [h0] at h1
          exact absurd h1 (by decide)
        | addi k =>
          have h0 : 0 + k = 0 * 0 := hval 0 0 0
          have h1 : 1 + k = 0 * 0 := hval 0 1 0
          have : k = 0 := by simpa using h0
          rw [this] at h1
          exact absurd h1 (by decide)
    · simp at hone

/-- With two there is: the first passes the word on, and outputs may be taken twice. -/
theorem square_two : ∃ prog, IsProgram 1 2 prog ∧ ProgComputes 1 square prog := by
  refine ⟨[⟨.add, .arg 0, .free⟩, ⟨.mul, .out 0 true, .out 0 true⟩], ⟨rfl, ?_, ?_, ?_⟩, false, ?_⟩
  · intro p hp k hk
    simp only [List.mem_cons, List.not_mem_nil, or_false] at hp
    rcases hp with rfl | rfl <;> simp at hk
    omega
  · intro i p hp j s hs
    match i with
    | 0 => simp at hp; subst hp; simp at hs
    | 1 => simp at hp; subst hp; simp at hs; omega
    | i + 2 => simp at hp
  · intro k hk
    match k with
    | 0 => rfl
    | k + 1 => omega
  · intro xs u
    rfl

/-- C89: as arguments are taken exactly once, `Multi` finds no single instruction for the square of a word, although a multiplication of the word by itself is one; with two instructions it finds a program. -/
theorem C89_square (P : Process) (hP : MildProcess P) (enc : IEnc) (useReal : Bool)
    (solve : (MuAsg Nat AV → Prop) → Option (MuAsg Nat AV)) (a0 : MuAsg Nat AV) (ha0 : MuSorted (multiProblem P.asm enc useReal 1 square) bitsOf a0)
    (hsolve : ∀ φ a, solve φ = some a → φ a ∧ MuSorted (multiProblem P.asm enc useReal 1 square) bitsOf a)
    (hcomplete : ∀ φ, (∃ a, φ a ∧ MuSorted (multiProblem P.asm enc useReal 1 square) bitsOf a) → solve φ ≠ none) :
    (∀ a : Word, peCall P.asm [(0, mkAV instT (rawCode instT (rr 2 0 0 0))), (1, wd a), (2, wd a)] = .ok [wd (square [a]), wd a]) ∧
    (¬ ∃ r, multiSolve (multiProblem P.asm enc useReal 1 square) bitsOf 1 solve a0 = .ok (some r)) ∧
    ∃ r, multiSolve (multiProblem P.asm enc useReal 1 square) bitsOf 2 solve a0 = .ok (some r) := by
  refine ⟨?_, ?_, ?_⟩
  · intro a
    have l4 : 0 < 4 := by decide
    have := call_raw P (v := rr 2 0 0 0) (rr_has (by decide) l4 l4 l4) a.toNat a.toNat 0 1 2
    refine this.trans ?_
    simp [rr, res, wd, square, at']
  · rw [← C89_found_iff P hP enc useReal 1 square 1 (by decide) solve a0 ha0 hsolve hcomplete]
    rintro ⟨prog, h⟩
    exact square_one prog h
  · rw [← C89_found_iff P hP enc useReal 1 square 2 (by decide) solve a0 ha0 hsolve hcomplete]
    exact square_two

/-- The program for `(a + b) * c`, and a solver with which it is found. -/
example (P : Process) (hP : MildProcess P) (enc : IEnc) (useReal : Bool) (a0 : MuAsg Nat AV) (ha0 : MuSorted (multiProblem P.asm enc useReal 3 add3) bitsOf a0) :
    ∃ r, multiSolve (multiProblem P.asm enc useReal 3 add3) bitsOf 2 (Mu.someSolve (multiProblem P.asm enc useReal 3 add3) bitsOf) a0 = .ok (some r) :=
  (C89_found_iff P hP enc useReal 3 add3 2 (by decide) _ a0 ha0 (Mu.someSolve_sound _ _) (Mu.someSolve_complete _ _)).mp ⟨_, add3_program⟩

end Peak.BPe
