import Verif.Spec.Pdp8
/-!
# C58: the PDP-8 simulator does what the machine does
-/

namespace Peak.Pdp8

open Spec

/-! ## Rotations -/

theorem rl1 (x : BitVec 13) : (x.rotateLeft 1).toNat = rotl x.toNat := by
  rw [BitVec.toNat_rotateLeft]
  have := x.isLt
  simp only [Nat.reduceMod, Nat.reduceSub]
  rw [Nat.shiftRight_eq_div_pow, Nat.shiftLeft_eq]
  have h : x.toNat * 2 ^ 1 % 2 ^ 13 = ((x.toNat % 4096) <<< 1) := by rw [Nat.shiftLeft_eq]; omega
  rw [h, ← Nat.shiftLeft_add_eq_or_of_lt (by omega), Nat.shiftLeft_eq]
  unfold rotl
  omega

theorem rl2 (x : BitVec 13) : (x.rotateLeft 2).toNat = rotl (rotl x.toNat) := by
  rw [BitVec.toNat_rotateLeft]
  have := x.isLt
  simp only [Nat.reduceMod, Nat.reduceSub]
  rw [Nat.shiftRight_eq_div_pow, Nat.shiftLeft_eq]
  have h : x.toNat * 2 ^ 2 % 2 ^ 13 = ((x.toNat % 2048) <<< 2) := by rw [Nat.shiftLeft_eq]; omega
  rw [h, ← Nat.shiftLeft_add_eq_or_of_lt (by omega), Nat.shiftLeft_eq]
  unfold rotl
  generalize x.toNat = n at *
  have : n / 2048 = 0 ∨ n / 2048 = 1 ∨ n / 2048 = 2 ∨ n / 2048 = 3 := by omega
  rcases this with h | h | h | h
  · have e : 2 * n % 8192 + n / 4096 = 2 * n := by omega
    rw [e]; omega
  · have e : 2 * n % 8192 + n / 4096 = 2 * n := by omega
    rw [e]; omega
  · have e : 2 * n % 8192 + n / 4096 = 2 * n - 8191 := by omega
    rw [e]; omega
  · have e : 2 * n % 8192 + n / 4096 = 2 * n - 8191 := by omega
    rw [e]; omega

theorem rr1 (x : BitVec 13) : (x.rotateRight 1).toNat = rotr x.toNat := by
  rw [BitVec.toNat_rotateRight]
  have := x.isLt
  simp only [Nat.reduceMod, Nat.reduceSub]
  rw [Nat.shiftRight_eq_div_pow, Nat.shiftLeft_eq, Nat.or_comm]
  have h : x.toNat * 2 ^ 12 % 2 ^ 13 = ((x.toNat % 2) <<< 12) := by rw [Nat.shiftLeft_eq]; omega
  rw [h, ← Nat.shiftLeft_add_eq_or_of_lt (by omega), Nat.shiftLeft_eq]
  unfold rotr
  omega

theorem rr2 (x : BitVec 13) : (x.rotateRight 2).toNat = rotr (rotr x.toNat) := by
  rw [BitVec.toNat_rotateRight]
  have := x.isLt
  simp only [Nat.reduceMod, Nat.reduceSub]
  rw [Nat.shiftRight_eq_div_pow, Nat.shiftLeft_eq, Nat.or_comm]
  have h : x.toNat * 2 ^ 11 % 2 ^ 13 = ((x.toNat % 4) <<< 11) := by rw [Nat.shiftLeft_eq]; omega
  rw [h, ← Nat.shiftLeft_add_eq_or_of_lt (by omega), Nat.shiftLeft_eq]
  unfold rotr
  omega

/-! ## Link and accumulator -/

def b2n (b : Bool) : Nat := if b then 1 else 0

/-- The two registers agree. -/
def AL (r : Word × Bool) (p : Nat × Nat) : Prop := r.1.toNat = p.1 ∧ b2n r.2 = p.2

theorem accLnk_toNat (acc : Word) (l : Bool) : (accLnk acc l).toNat = both acc.toNat (b2n l) := by
  unfold accLnk both
  rw [BitVec.toNat_append, ← Nat.shiftLeft_add_eq_or_of_lt acc.isLt, Nat.shiftLeft_eq]
  cases l <;> rfl

theorem split_AL (x : BitVec 13) (n : Nat) (hx : x.toNat = n) : AL (split13 x) (split n) := by
  subst hx
  refine ⟨?_, ?_⟩
  · show (x.extractLsb' 0 12).toNat = x.toNat % 4096
    rw [BitVec.extractLsb'_toNat]; rfl
  · show b2n (x.getLsbD 12) = x.toNat / 4096 % 2
    unfold b2n
    rw [← BitVec.testBit_toNat, Nat.testBit_eq_decide_div_mod_eq]
    by_cases h : x.toNat / 2 ^ 12 % 2 = 1
    · simp only [h, decide_true, if_true]
    · simp only [h, decide_false, Bool.false_eq_true, if_false]; omega

theorem split_both (acc : Word) (l : Bool) : split (both acc.toNat (b2n l)) = (acc.toNat, b2n l) := by
  have := acc.isLt
  unfold split both b2n
  cases l <;> simp <;> omega

/-- The value of the accumulator when `iac` increments it. -/
def beforeIac (o : OPR1) (acc : Nat) : Nat := if o.cma then 4095 - (if o.cla then 0 else acc) else (if o.cla then 0 else acc)

theorem group1_AL (o : OPR1) (acc : Word) (lnk : Bool) (hi : o.iac = true → beforeIac o acc.toNat ≠ 4095)
    (hsw : o.twice = true → o.ral = true ∨ o.rar = true) (r : Nat × Nat) (hg : Spec.group1 o acc.toNat (b2n lnk) = some r) :
    AL (group1 o acc lnk) r := by
  unfold Spec.group1 at hg
  unfold group1
  simp only [] at hg ⊢
  have ha : (if o.cla then (0 : Nat) else acc.toNat) = (if o.cla then (0 : Word) else acc).toNat := by cases o.cla <;> rfl
  have hi' := hi
  unfold beforeIac at hi'
  rw [ha] at hg hi'
  clear ha
  generalize (if o.cla then (0 : Word) else acc) = a1 at *
  have hm : (if o.cma then 4095 - a1.toNat else a1.toNat) = (if o.cma then ~~~a1 else a1).toNat := by
    cases o.cma
    · rfl
    · simp only [if_true, BitVec.toNat_not]
  rw [hm] at hg hi'
  clear hm
  generalize (if o.cma then ~~~a1 else a1) = a2 at *
  have hl : (if o.cll then 0 else b2n lnk) = b2n (if o.cll then false else lnk) := by cases o.cll <;> rfl
  rw [hl] at hg
  clear hl
  generalize (if o.cll then false else lnk) = l1 at *
  have hc : (if o.cml then 1 - b2n l1 else b2n l1) = b2n (if o.cml then !l1 else l1) := by cases o.cml <;> cases l1 <;> rfl
  rw [hc] at hg
  clear hc
  generalize (if o.cml then !l1 else l1) = l2 at *
  have hx : (if o.iac then (both a2.toNat (b2n l2) + 1) % 8192 else both a2.toNat (b2n l2)) =
      both (if o.iac then a2 + 1 else a2).toNat (b2n l2) := by
    cases hh : o.iac with
    | false => rfl
    | true =>
      have h1 := hi' hh
      have h2 := a2.isLt
      simp only [if_true]
      rw [BitVec.toNat_add]
      have h3 : (1 : Word).toNat = 1 := rfl
      have hb : b2n l2 ≤ 1 := by cases l2 <;> decide
      rw [h3]
      unfold both
      have : (a2.toNat + 1) % 2 ^ 12 = a2.toNat + 1 := Nat.mod_eq_of_lt (by omega)
      rw [this]
      omega
  rw [hx] at hg
  clear hx hi hi'
  generalize (if o.iac then a2 + 1 else a2) = a3 at *
  have hself : AL (a3, l2) (split (both a3.toNat (b2n l2))) := by rw [split_both]; exact ⟨rfl, rfl⟩
  have e : (accLnk a3 l2).toNat = both a3.toNat (b2n l2) := accLnk_toNat a3 l2
  cases h1 : o.ral <;> cases h2 : o.rar <;> cases h3 : o.twice <;> rw [h1, h2, h3] at hg <;>
    simp only [Option.some.injEq, reduceCtorEq] at hg <;> simp only [if_true, if_false, Bool.false_eq_true]
  · subst hg; exact hself
  · exact absurd (hsw h3) (by rw [h1, h2]; decide)
  · subst hg; exact split_AL _ _ (by rw [rr1, e])
  · subst hg; exact split_AL _ _ (by rw [rr2, e])
  · subst hg; exact split_AL _ _ (by rw [rl1, e])
  · subst hg; exact split_AL _ _ (by rw [rl2, e])

/-! ## Memory and addresses -/

theorem toInt_rel (p : PVal) (n : Nat) (h : CellRel p (.data n)) : toInt p = .ok n ∧ n < 4096 := by
  cases p with
  | int k => obtain ⟨rfl, h⟩ := h; exact ⟨rfl, h⟩
  | bv w v => obtain ⟨rfl, h, _⟩ := h; exact ⟨rfl, h⟩
  | inst i => exact h.elim

/-- An increment that does not leave the 4096 numbers, or wraps in twelve bits. -/
def Fits (p : PVal) (n : Nat) : Prop := n < 4096 ∨ ∃ v, p = .bv 12 v

theorem pow_ge (w : Nat) (h : 12 ≤ w) : 4096 ≤ 2 ^ w := by
  calc 4096 = 2 ^ 12 := by decide
    _ ≤ 2 ^ w := Nat.pow_le_pow_right (by decide) h

theorem plus1_rel (p : PVal) (n : Nat) (h : CellRel p (.data n)) (hf : Fits p (n + 1)) (p' : PVal) (hp : plus1 p = .ok p') :
    CellRel p' (.data ((n + 1) % 4096)) ∧ ((∃ v, p = .bv 12 v) → ∃ v, p' = .bv 12 v) := by
  cases p with
  | int k =>
    obtain ⟨rfl, h⟩ := h
    cases hp
    rcases hf with hf | ⟨v, hv⟩
    · exact ⟨⟨(Nat.mod_eq_of_lt hf).symm, Nat.mod_lt _ (by decide)⟩, fun ⟨v, hv⟩ => by cases hv⟩
    · cases hv
  | bv w v =>
    obtain ⟨rfl, h, hw⟩ := h
    cases hp
    refine ⟨⟨?_, Nat.mod_lt _ (by decide), hw⟩, fun ⟨v, hv⟩ => by cases hv; exact ⟨_, rfl⟩⟩
    rcases hf with hf | ⟨v', hv⟩
    · rw [Nat.mod_eq_of_lt hf, Nat.mod_eq_of_lt (Nat.lt_of_lt_of_le hf (pow_ge w hw))]
    · cases hv; rfl
  | inst i => exact h.elim

theorem load_ok (s : St) (a v : PVal) (h : s.load a = .ok v) : ∃ n, toInt a = .ok n ∧ s.mem[n]? = some v := by
  unfold St.load at h
  cases ha : toInt a with
  | error e => rw [ha] at h; cases h
  | ok n =>
    rw [ha] at h
    simp only [bind, Except.bind] at h
    cases hv : s.mem[n]? with
    | none => rw [hv] at h; cases h
    | some x => rw [hv] at h; cases h; exact ⟨n, rfl, hv⟩

theorem load_rel (s : St) (t : SSt) (hr : Rel s t) (n : Nat) (v : PVal) (hv : s.mem[n]? = some v) :
    n < 4096 ∧ CellRel v (t.mem n) := by
  obtain ⟨hn, rfl⟩ := List.getElem?_eq_some_iff.mp hv
  exact ⟨by rw [← hr.len]; exact hn, hr.mem n hn⟩

theorem store_ok (s : St) (a v : PVal) (s' : St) (h : s.store a v = .ok s') :
    ∃ n, toInt a = .ok n ∧ n < s.mem.length ∧ s' = { s with mem := s.mem.set n v } := by
  unfold St.store at h
  cases ha : toInt a with
  | error e => rw [ha] at h; cases h
  | ok n =>
    rw [ha] at h
    simp only [bind, Except.bind] at h
    split at h
    · next hn => cases h; exact ⟨n, rfl, hn, rfl⟩
    · cases h

theorem store_mem (s : St) (t : SSt) (hr : Rel s t) (n : Nat) (v : PVal) (c : Cell) (hc : CellRel v c)
    (a : Nat) (h : a < (s.mem.set n v).length) : CellRel (s.mem.set n v)[a] (upd t.mem n c a) := by
  rw [List.getElem_set]
  unfold upd
  by_cases hna : n = a
  · subst hna; rw [if_pos rfl, if_pos rfl]; exact hc
  · rw [if_neg hna, if_neg (fun h => hna h.symm)]
    exact hr.mem a (by simpa using h)

/-- The effective address: the machine's, or, for a direct reference on a page other than zero, no address at all. -/
theorem addr_rel (s : St) (t : SSt) (hr : Rel s t) (pz : Bool) (m : MRI) (pc a : PVal) (hpc : CellRel pc (.data ((t.pc + 1) % 4096)))
    (hpf : t.pc + 1 < 4096 ∨ ∃ v, pc = .bv 12 v)
    (hauto : m.indirect = true → ¬ (8 ≤ direct m t.pc ∧ direct m t.pc ≤ 15)) (h : s.addr pz m pc = .ok a)
    (k : Nat) (t' : SSt) (he : effective t m = some (k, t')) :
    t' = t ∧ (CellRel a (.data k) ∨ (m.indirect = false ∧ 128 ≤ t.pc ∧ ¬ (m.currentPage = false ∧ pz = true) ∧
      ∃ n, toInt a = .ok n ∧ 4096 ≤ n)) := by
  have htp : t.pc < 4096 := (toInt_rel _ _ hr.pc).2
  unfold St.addr at h
  -- the page
  have hpage : ∀ p, page pz m pc = .ok p → (m.addr.toNat + p.2 * 2 ^ 12 = direct m t.pc ∧ direct m t.pc < 4096) ∨
      (128 ≤ t.pc ∧ ¬ (m.currentPage = false ∧ pz = true) ∧ 4096 ≤ m.addr.toNat + p.2 * 2 ^ 12) := by
    intro p hp
    have hal := m.addr.isLt
    unfold page at hp
    split at hp
    · next hz =>
      simp only [Bool.and_eq_true, Bool.not_eq_true'] at hz
      cases hp
      left
      unfold direct
      rw [hz.1]
      simp only [Bool.false_eq_true, if_false]
      omega
    · next hz =>
      simp only [Bool.and_eq_true, Bool.not_eq_true'] at hz
      cases pc with
      | int n => cases hp
      | inst i => cases hp
      | bv w v =>
        simp only [Except.ok.injEq] at hp
        subst hp
        obtain ⟨rfl, hlt, hw⟩ := hpc
        have hpw := pow_ge w hw
        have hval : ((t.pc + 1) % 4096 + (2 ^ w - 1)) % 2 ^ w = t.pc := by
          rcases hpf with hpf | ⟨v, hv⟩
          · rw [Nat.mod_eq_of_lt hpf]
            have : t.pc + 1 + (2 ^ w - 1) = t.pc + 2 ^ w := by omega
            rw [this, Nat.add_mod_right, Nat.mod_eq_of_lt (by omega)]
          · cases hv
            omega
        rw [hval]
        by_cases h128 : t.pc < 128
        · left
          have : t.pc / 2 ^ 7 = 0 := by omega
          rw [this]
          unfold direct
          have : t.pc / 128 = 0 := by omega
          rw [this]
          split <;> omega
        · right
          exact ⟨by omega, hz, by omega⟩
  cases hp : page pz m pc with
  | error e => rw [hp] at h; cases h
  | ok p =>
    rw [hp] at h
    simp only [bind, Except.bind] at h
    unfold effective at he
    simp only [] at he
    cases hind : m.indirect with
    | true =>
      rw [hind] at h he
      simp only [if_true] at h he
      obtain ⟨n, hn, hv⟩ := load_ok _ _ _ h
      cases hn
      obtain ⟨hlt, hrel⟩ := load_rel s t hr _ _ hv
      rcases hpage p hp with ⟨h1, _⟩ | ⟨_, _, h1⟩
      · rw [h1] at hrel
        cases hc : t.mem (direct m t.pc) with
        | code i => rw [hc] at he; cases he
        | data x =>
          rw [hc] at he
          simp only [Cell.data?] at he
          rw [if_neg (hauto hind)] at he
          cases he
          rw [hc] at hrel
          exact ⟨rfl, .inl hrel⟩
      · omega
    | false =>
      rw [hind] at h he
      simp only [Bool.false_eq_true, if_false] at h he
      cases h
      cases he
      refine ⟨rfl, ?_⟩
      rcases hpage p hp with ⟨h1, h2⟩ | ⟨h1, h2, h3⟩
      · exact .inl ⟨h1, h2, by omega⟩
      · exact .inr ⟨rfl, h1, h2, _, rfl, h3⟩

/-! ## One call -/

/-- What the simulator gets right, given that a call returns.  `s` enters only for the widths of the values that are incremented. -/
structure Covered (pz : Bool) (s : St) (t : SSt) (i : Inst) : Prop where
  /-- the program counter does not run past the end of the memory, unless it has twelve bits -/
  pc : Fits s.pc (t.pc + 2)
  /-- no indirect reference through the locations 8 to 15 -/
  auto : ∀ m, i ∈ [.and_ m, .tad m, .isz m, .dca m, .jms m, .jmp m] → m.indirect = true → ¬ (8 ≤ direct m t.pc ∧ direct m t.pc ≤ 15)
  /-- a direct jump is on page zero -/
  jmp : ∀ m, i = .jmp m → m.indirect = false → t.pc < 128 ∨ (m.currentPage = false ∧ pz = true)
  /-- a subroutine is not entered at the last location -/
  jms : ∀ m a t', i = .jms m → effective t m = some (a, t') → a + 1 < 4096
  /-- a counter of more than twelve bits does not overflow -/
  isz : ∀ m a t' d, i = .isz m → effective t m = some (a, t') → t.mem a = .data d → ∀ v, s.mem[a]? = some v → Fits v (d + 1)
  /-- `iac` does not overflow into the link -/
  iac : ∀ o, i = .opr1 o → o.iac = true → beforeIac o t.acc ≠ 4095
  /-- no byte swap -/
  swap : ∀ o, i = .opr1 o → o.twice = true → o.ral = true ∨ o.rar = true
  /-- no test of the link -/
  snl : ∀ o, i = .opr2 o → o.snl = false

theorem data?_some {c : Cell} {d : Nat} (h : c.data? = some d) : c = .data d := by
  cases c with
  | data n => cases h; rfl
  | code i => cases h

theorem msb_iff (a : Word) : a.msb = decide (2048 ≤ a.toNat) := by
  rw [BitVec.msb_eq_decide]

theorem skips_eq (s : St) (t : SSt) (hr : Rel s t) (o : OPR2) (hsnl : o.snl = false) : s.skips o = Spec.skips t o := by
  have ha : (s.acc == 0) = decide (t.acc = 0) := by
    rw [← hr.acc]
    have h0 : (0 : Word).toNat = 0 := rfl
    by_cases h : s.acc = 0
    · rw [h]; rfl
    · have : s.acc.toNat ≠ 0 := fun h' => h (BitVec.eq_of_toNat_eq (by rw [h', h0]))
      simp only [this, decide_false]
      exact beq_eq_false_iff_ne.mpr h
  have hm : s.acc.msb = decide (2048 ≤ t.acc) := by rw [msb_iff, hr.acc]
  unfold St.skips Spec.skips
  rw [hsnl, hm]
  simp only [bne]
  rw [ha]
  generalize decide (2048 ≤ t.acc) = x
  generalize decide (t.acc = 0) = y
  cases o.sma <;> cases o.sza <;> cases o.skip <;> cases x <;> cases y <;> rfl

theorem rel_next {s : St} {t : SSt} {p : PVal} {n : Nat} (len : s.mem.length = 4096)
    (mem : ∀ a (h : a < s.mem.length), CellRel s.mem[a] (t.mem a)) (pc : CellRel p (.data (n % 4096)))
    (acc : s.acc.toNat = t.acc) (lnk : (if s.lnk then 1 else 0) = t.lnk) (running : s.running = t.running) :
    Rel { s with pc := p } (next t n) := ⟨len, mem, pc, acc, lnk, running⟩

/-- Two increments. -/
theorem plus2_rel (p p1 p2 : PVal) (n : Nat) (h : CellRel p (.data n)) (hf : Fits p (n + 2)) (h1 : plus1 p = .ok p1) (h2 : plus1 p1 = .ok p2) :
    CellRel p2 (.data ((n + 2) % 4096)) := by
  have hf1 : Fits p (n + 1) := by
    rcases hf with hf | hf
    · exact .inl (by omega)
    · exact .inr hf
  obtain ⟨r1, w1⟩ := plus1_rel p n h hf1 p1 h1
  have hf2 : Fits p1 ((n + 1) % 4096 + 1) := by
    rcases hf with hf | hf
    · exact .inl (by rw [Nat.mod_eq_of_lt (by omega)]; exact hf)
    · exact .inr (w1 hf)
  have := (plus1_rel p1 _ r1 hf2 p2 h2).1
  have e : ((n + 1) % 4096 + 1) % 4096 = (n + 2) % 4096 := by omega
  rw [← e]; exact this

theorem exec_rel (pz : Bool) (s : St) (t : SSt) (hr : Rel s t) (i : Inst) (hc : Covered pz s t i) (pc : PVal) (hpc : plus1 s.pc = .ok pc)
    (r : St × PVal) (h : s.exec pz i pc = .ok r) (t' : SSt) (ht : exec t i = some t') : Rel { r.1 with pc := r.2 } t' := by
  have hf1 : Fits s.pc (t.pc + 1) := by
    rcases hc.pc with hf | hf
    · exact .inl (by omega)
    · exact .inr hf
  obtain ⟨hp1, hw1⟩ := plus1_rel s.pc t.pc hr.pc hf1 pc hpc
  have hpf : t.pc + 1 < 4096 ∨ ∃ v, pc = .bv 12 v := by
    rcases hc.pc with hf | hf
    · exact .inl (by omega)
    · exact .inr (hw1 hf)
  have addrR := fun (m : MRI) (hm : i ∈ [Inst.and_ m, .tad m, .isz m, .dca m, .jms m, .jmp m]) (a : PVal) (ha : s.addr pz m pc = .ok a) =>
    addr_rel s t hr pz m pc a hp1 hpf (hc.auto m hm) ha
  -- for a reference that is loaded or stored, the address is in range
  have addrL : ∀ (m : MRI), i ∈ [Inst.and_ m, .tad m, .isz m, .dca m, .jms m, .jmp m] → ∀ a, s.addr pz m pc = .ok a → ∀ k t',
      effective t m = some (k, t') → ∀ n, toInt a = .ok n → n < 4096 → t' = t ∧ CellRel a (.data k) ∧ n = k := by
    intro m hm a ha k t' he n hn hlt
    obtain ⟨ht, hor⟩ := addrR m hm a ha k t' he
    rcases hor with hor | ⟨_, _, _, n', hn', hge⟩
    · have := (toInt_rel a k hor).1
      rw [hn] at this
      cases this
      exact ⟨ht, hor, rfl⟩
    · rw [hn] at hn'; cases hn'; omega
  cases i with
  | and_ m =>
    simp only [St.exec, bind, Except.bind] at h
    simp only [exec, bind, Option.bind] at ht
    cases ha : s.addr pz m pc with
    | error e => rw [ha] at h; cases h
    | ok a =>
      rw [ha] at h
      simp only [] at h
      cases hl : s.load a with
      | error e => rw [hl] at h; cases h
      | ok v =>
        rw [hl] at h
        simp only [] at h
        cases he : effective t m with
        | none => rw [he] at ht; cases ht
        | some x =>
          obtain ⟨k, t1⟩ := x
          rw [he] at ht
          simp only [] at ht
          obtain ⟨n, hn, hv⟩ := load_ok _ _ _ hl
          obtain ⟨hlt, hrel⟩ := load_rel s t hr _ _ hv
          obtain ⟨rfl, _, rfl⟩ := addrL m (by simp) a ha k t1 he n hn hlt
          cases hd : (t1.mem n).data? with
          | none => rw [hd] at ht; cases ht
          | some d =>
            rw [hd] at ht
            simp only [Option.some.injEq] at ht
            subst ht
            rw [data?_some hd] at hrel
            have hand : ∀ w, andData s.acc v = .ok w → w.toNat = t1.acc &&& d := by
              intro w hw
              cases v with
              | int x =>
                obtain ⟨rfl, hx⟩ := hrel
                cases hw
                rw [BitVec.toNat_and, BitVec.toNat_ofNat, hr.acc, Nat.mod_eq_of_lt hx]
              | bv w' x =>
                obtain ⟨rfl, hx, _⟩ := hrel
                simp only [andData] at hw
                split at hw
                · cases hw
                  rw [BitVec.toNat_and, BitVec.toNat_ofNat, hr.acc, Nat.mod_eq_of_lt hx]
                · cases hw
              | inst i => exact hrel.elim
            cases hw : andData s.acc v with
            | error e => rw [hw] at h; cases h
            | ok w =>
              rw [hw] at h
              cases h
              exact rel_next (s := { s with acc := w }) (t := { t1 with acc := t1.acc &&& d }) hr.len hr.mem hp1 (hand w hw) hr.lnk hr.running
  | tad m =>
    simp only [St.exec, bind, Except.bind] at h
    simp only [exec, bind, Option.bind] at ht
    cases ha : s.addr pz m pc with
    | error e => rw [ha] at h; cases h
    | ok a =>
      rw [ha] at h
      simp only [] at h
      cases hl : s.load a with
      | error e => rw [hl] at h; cases h
      | ok v =>
        rw [hl] at h
        simp only [] at h
        cases he : effective t m with
        | none => rw [he] at ht; cases ht
        | some x =>
          obtain ⟨k, t1⟩ := x
          rw [he] at ht
          simp only [] at ht
          obtain ⟨n, hn, hv⟩ := load_ok _ _ _ hl
          obtain ⟨hlt, hrel⟩ := load_rel s t hr _ _ hv
          obtain ⟨rfl, _, rfl⟩ := addrL m (by simp) a ha k t1 he n hn hlt
          cases hd : (t1.mem n).data? with
          | none => rw [hd] at ht; cases ht
          | some d =>
            rw [hd] at ht
            simp only [Option.some.injEq] at ht
            subst ht
            rw [data?_some hd] at hrel
            cases v with
            | int x => cases h
            | inst i => cases h
            | bv w x =>
              obtain ⟨rfl, hx, _⟩ := hrel
              simp only [concat0] at h
              split at h
              · cases h
                have hs : (accLnk s.acc s.lnk + BitVec.ofNat 13 x).toNat = (both t1.acc t1.lnk + x) % 8192 := by
                  have hlk : b2n s.lnk = t1.lnk := hr.lnk
                  rw [BitVec.toNat_add, accLnk_toNat, hr.acc, hlk, BitVec.toNat_ofNat, Nat.mod_eq_of_lt (by omega : x < 2 ^ 13)]
                have hal := split_AL _ _ hs
                exact rel_next (s := { s with acc := _, lnk := _ }) (t := { t1 with acc := _, lnk := _ }) hr.len hr.mem hp1 hal.1 hal.2 hr.running
              · cases h
  | isz m =>
    simp only [St.exec, bind, Except.bind] at h
    simp only [exec, bind, Option.bind] at ht
    cases ha : s.addr pz m pc with
    | error e => rw [ha] at h; cases h
    | ok a =>
      rw [ha] at h
      simp only [] at h
      cases hl : s.load a with
      | error e => rw [hl] at h; cases h
      | ok v =>
        rw [hl] at h
        simp only [] at h
        cases he : effective t m with
        | none => rw [he] at ht; cases ht
        | some x =>
          obtain ⟨k, t1⟩ := x
          rw [he] at ht
          simp only [] at ht
          obtain ⟨n, hn, hv⟩ := load_ok _ _ _ hl
          obtain ⟨hlt, hrel⟩ := load_rel s t hr _ _ hv
          obtain ⟨rfl, _, rfl⟩ := addrL m (by simp) a ha k t1 he n hn hlt
          cases hd : (t1.mem n).data? with
          | none => rw [hd] at ht; cases ht
          | some d =>
            rw [hd] at ht
            simp only [Option.some.injEq] at ht
            have hdat := data?_some hd
            rw [hdat] at hrel
            cases hv1 : plus1 v with
            | error e => rw [hv1] at h; cases h
            | ok v1 =>
              rw [hv1] at h
              simp only [] at h
              have hr1 := (plus1_rel v d hrel (hc.isz m n t1 d rfl he hdat v hv) v1 hv1).1
              cases hst : s.store a v1 with
              | error e => rw [hst] at h; cases h
              | ok s1 =>
                rw [hst] at h
                obtain ⟨n', hn', _, hs1⟩ := store_ok _ _ _ _ hst
                rw [hn] at hn'
                cases hn'
                simp only [(toInt_rel _ _ hr1).1] at h
                have hmem := store_mem s t1 hr n v1 _ hr1
                split at h
                · next hz =>
                  rw [if_pos hz] at ht
                  cases hpp : plus1 pc with
                  | error e => rw [hpp] at h; cases h
                  | ok pp =>
                    rw [hpp] at h
                    cases h
                    subst ht hs1
                    exact rel_next (s := { s with mem := _ }) (t := { t1 with mem := _ }) (by simpa using hr.len) hmem
                      (plus2_rel s.pc pc pp t1.pc hr.pc hc.pc hpc hpp) hr.acc hr.lnk hr.running
                · next hz =>
                  rw [if_neg hz] at ht
                  cases h
                  subst ht hs1
                  exact rel_next (s := { s with mem := _ }) (t := { t1 with mem := _ }) (by simpa using hr.len) hmem
                    hp1 hr.acc hr.lnk hr.running
  | dca m =>
    simp only [St.exec, bind, Except.bind] at h
    simp only [exec, bind, Option.bind] at ht
    cases ha : s.addr pz m pc with
    | error e => rw [ha] at h; cases h
    | ok a =>
      rw [ha] at h
      simp only [] at h
      cases he : effective t m with
      | none => rw [he] at ht; cases ht
      | some x =>
        obtain ⟨k, t1⟩ := x
        rw [he] at ht
        simp only [Option.some.injEq] at ht
        cases hst : s.store a (.bv 12 s.acc.toNat) with
        | error e => rw [hst] at h; cases h
        | ok s1 =>
          rw [hst] at h
          cases h
          obtain ⟨n, hn, hlt, hs1⟩ := store_ok _ _ _ _ hst
          obtain ⟨rfl, _, rfl⟩ := addrL m (by simp) a ha k t1 he n hn (by rw [← hr.len]; exact hlt)
          subst ht hs1
          have hcell : CellRel (.bv 12 s.acc.toNat) (.data t1.acc) := ⟨hr.acc, by rw [← hr.acc]; exact s.acc.isLt, Nat.le_refl _⟩
          exact rel_next (s := { s with mem := _, acc := 0 }) (t := { t1 with mem := _, acc := 0 }) (by simpa using hr.len)
            (store_mem s t1 hr n _ _ hcell) hp1 rfl hr.lnk hr.running
  | jmp m =>
    simp only [St.exec, bind, Except.bind] at h
    simp only [exec, bind, Option.bind] at ht
    cases ha : s.addr pz m pc with
    | error e => rw [ha] at h; cases h
    | ok a =>
      rw [ha] at h
      cases h
      cases he : effective t m with
      | none => rw [he] at ht; cases ht
      | some x =>
        obtain ⟨k, t1⟩ := x
        rw [he] at ht
        simp only [Option.some.injEq] at ht
        subst ht
        obtain ⟨rfl, hor⟩ := addrR m (by simp) a ha k t1 he
        rcases hor with hor | ⟨h1, h2, h3, _⟩
        · have hk := (toInt_rel a k hor).2
          exact rel_next hr.len hr.mem (by rw [Nat.mod_eq_of_lt hk]; exact hor) hr.acc hr.lnk hr.running
        · rcases hc.jmp m rfl h1 with h | h
          · omega
          · exact absurd h h3
  | jms m =>
    simp only [St.exec, bind, Except.bind] at h
    simp only [exec, bind, Option.bind] at ht
    cases ha : s.addr pz m pc with
    | error e => rw [ha] at h; cases h
    | ok a =>
      rw [ha] at h
      simp only [] at h
      cases he : effective t m with
      | none => rw [he] at ht; cases ht
      | some x =>
        obtain ⟨k, t1⟩ := x
        rw [he] at ht
        simp only [Option.some.injEq] at ht
        cases hst : s.store a pc with
        | error e => rw [hst] at h; cases h
        | ok s1 =>
          rw [hst] at h
          simp only [] at h
          obtain ⟨n, hn, hlt, hs1⟩ := store_ok _ _ _ _ hst
          obtain ⟨rfl, hak, rfl⟩ := addrL m (by simp) a ha k t1 he n hn (by rw [← hr.len]; exact hlt)
          cases hpp : plus1 a with
          | error e => rw [hpp] at h; cases h
          | ok pp =>
            rw [hpp] at h
            cases h
            subst ht hs1
            exact rel_next (s := { s with mem := _ }) (t := { t1 with mem := _ }) (by simpa using hr.len)
              (store_mem s t1 hr n _ _ hp1) (plus1_rel a n hak (.inl (hc.jms m n t1 rfl he)) pp hpp).1 hr.acc hr.lnk hr.running
  | iot m => cases ht
  | opr1 o =>
    simp only [St.exec] at h
    cases h
    simp only [exec, bind, Option.bind] at ht
    cases hg : Spec.group1 o t.acc t.lnk with
    | none => rw [hg] at ht; cases ht
    | some x =>
      rw [hg] at ht
      simp only [Option.some.injEq] at ht
      subst ht
      have hlk : b2n s.lnk = t.lnk := hr.lnk
      rw [← hr.acc, ← hlk] at hg
      have := group1_AL o s.acc s.lnk (by rw [hr.acc]; exact hc.iac o rfl) (hc.swap o rfl) x hg
      exact rel_next (s := { s with acc := _, lnk := _ }) (t := { t with acc := _, lnk := _ }) hr.len hr.mem hp1 this.1 this.2 hr.running
  | opr2 o =>
    simp only [St.exec, bind, Except.bind] at h
    simp only [exec] at ht
    split at ht
    · cases ht
    · simp only [Option.some.injEq] at ht
      rw [skips_eq s t hr o (hc.snl o rfl)] at h
      have key : ∀ p n, CellRel p (.data (n % 4096)) → Rel { s.group2 o with pc := p }
          (next (if o.hlt then { (if o.cla then { t with acc := 0 } else t) with running := false } else
            (if o.cla then { t with acc := 0 } else t)) n) := by
        intro p n hp
        unfold St.group2
        cases o.cla <;> cases o.hlt <;>
          exact ⟨hr.len, hr.mem, hp, by first | rfl | exact hr.acc, hr.lnk, by first | rfl | exact hr.running⟩
      subst ht
      cases hsk : Spec.skips t o with
      | true =>
        rw [hsk] at h
        simp only [if_true] at h ⊢
        cases hpp : plus1 pc with
        | error e => rw [hpp] at h; cases h
        | ok pp =>
          rw [hpp] at h
          cases h
          exact key pp _ (plus2_rel s.pc pc pp t.pc hr.pc hc.pc hpc hpp)
      | false =>
        rw [hsk] at h
        simp only [Bool.false_eq_true, if_false] at h ⊢
        cases h
        exact key pc _ hp1

/-- What is required of a state before a call, if the machine runs and is at an instruction. -/
def CoveredAt (pz : Bool) (s : St) (t : SSt) : Prop := t.running = true → ∀ i, t.mem t.pc = .code i → Covered pz s t i

/-- A call, when it returns, does what the machine does. -/
theorem C58_step_partial (pz : Bool) (s : St) (t : SSt) (hr : Rel s t) (hc : CoveredAt pz s t) (s' : St) (h : s.step pz = .ok s')
    (t' : SSt) (ht : step t = some t') : Rel s' t' := by
  unfold St.step at h
  unfold step at ht
  cases hrun : t.running with
  | false =>
    rw [hrun] at ht
    have : s.running = false := by rw [hr.running, hrun]
    rw [this] at h
    cases h
    cases ht
    exact hr
  | true =>
    have hs : s.running = true := by rw [hr.running, hrun]
    rw [hrun] at ht
    rw [hs] at h
    simp only [Bool.not_true, Bool.false_eq_true, if_false, if_true, bind, Except.bind] at h ht
    cases hl : s.load s.pc with
    | error e => rw [hl] at h; cases h
    | ok c =>
      rw [hl] at h
      simp only [] at h
      obtain ⟨n, hn, hv⟩ := load_ok _ _ _ hl
      have hpn := (toInt_rel _ _ hr.pc).1
      rw [hn] at hpn
      cases hpn
      obtain ⟨_, hrel⟩ := load_rel s t hr _ _ hv
      cases hp : plus1 s.pc with
      | error e => rw [hp] at h; cases h
      | ok pc =>
        rw [hp] at h
        simp only [] at h
        cases hm : t.mem t.pc with
        | data d => rw [hm] at ht; cases ht
        | code i =>
          rw [hm] at ht hrel
          simp only [] at ht
          cases c with
          | int n => exact hrel.elim
          | bv w v => exact hrel.elim
          | inst j =>
            have : j = i := hrel
            subst this
            simp only [] at h
            cases hx : s.exec pz j pc with
            | error e => rw [hx] at h; cases h
            | ok r =>
              rw [hx] at h
              cases h
              exact exec_rel pz s t hr j (hc hrun j hm) pc hp r hx t' ht

/-- The states the simulator and the machine visit before the `n`-th call are covered. -/
def CoveredRun (pz : Bool) : Nat → St → SSt → Prop
  | 0, _, _ => True
  | n + 1, s, t => CoveredAt pz s t ∧ ∀ s' t', s.step pz = .ok s' → step t = some t' → CoveredRun pz n s' t'

/-- Any number of calls. -/
theorem C58_run_partial (pz : Bool) (n : Nat) (s : St) (t : SSt) (hr : Rel s t) (hc : CoveredRun pz n s t) (s' : St)
    (h : s.steps pz n = .ok s') (t' : SSt) (ht : steps n t = some t') : Rel s' t' := by
  induction n generalizing s t with
  | zero => cases h; cases ht; exact hr
  | succ n ih =>
    simp only [St.steps, bind, Except.bind] at h
    simp only [steps, bind, Option.bind] at ht
    cases h1 : s.step pz with
    | error e => rw [h1] at h; cases h
    | ok s1 =>
      rw [h1] at h
      cases h2 : step t with
      | none => rw [h2] at ht; cases ht
      | some t1 =>
        rw [h2] at ht
        exact ih s1 t1 (C58_step_partial pz s t hr hc.1 s1 h1 t1 h2) (hc.2 s1 t1 h1 h2) h ht

/-! ## The calls that return -/

theorem addr_page0 (s : St) (t : SSt) (hr : Rel s t) (pz : Bool) (m : MRI) (w : Nat) (pc : PVal) (hpc : plus1 s.pc = .ok pc)
    (hw : s.pc = .bv w t.pc) (h12 : 12 ≤ w) (h128 : t.pc < 128) (k : Nat) (t' : SSt) (he : effective t m = some (k, t')) :
    ∃ a, s.addr pz m pc = .ok a := by
  have hpw := pow_ge w h12
  rw [hw] at hpc
  cases hpc
  have hal := m.addr.isLt
  have hd : direct m t.pc = m.addr.toNat := by
    unfold direct
    have : t.pc / 128 = 0 := by omega
    rw [this]
    split <;> omega
  have hpage : ∃ x, page pz m (.bv w ((t.pc + 1) % 2 ^ w)) = .ok (x, 0) := by
    unfold page
    split
    · exact ⟨_, rfl⟩
    · refine ⟨w - 7, ?_⟩
      have : (t.pc + 1) % 2 ^ w = t.pc + 1 := Nat.mod_eq_of_lt (by omega)
      simp only [this]
      have : t.pc + 1 + (2 ^ w - 1) = t.pc + 2 ^ w := by omega
      rw [this, Nat.add_mod_right, Nat.mod_eq_of_lt (by omega)]
      have : t.pc / 2 ^ 7 = 0 := by omega
      rw [this]
  obtain ⟨x, hx⟩ := hpage
  unfold St.addr
  rw [hx]
  simp only [bind, Except.bind]
  split
  · have hlt : m.addr.toNat + 0 * 2 ^ 12 < s.mem.length := by rw [hr.len]; omega
    refine ⟨s.mem[m.addr.toNat + 0 * 2 ^ 12], ?_⟩
    unfold St.load
    simp only [toInt, bind, Except.bind]
    rw [List.getElem?_eq_getElem hlt]
  · exact ⟨_, rfl⟩

theorem load_total (s : St) (t : SSt) (hr : Rel s t) (a : PVal) (k : Nat) (ha : CellRel a (.data k)) :
    ∃ v, s.load a = .ok v ∧ s.mem[k]? = some v ∧ CellRel v (t.mem k) := by
  obtain ⟨h1, h2⟩ := toInt_rel a k ha
  have hlt : k < s.mem.length := by rw [hr.len]; exact h2
  refine ⟨s.mem[k], ?_, List.getElem?_eq_getElem hlt, hr.mem k hlt⟩
  unfold St.load
  rw [h1]
  simp only [bind, Except.bind]
  rw [List.getElem?_eq_getElem hlt]

theorem store_total (s : St) (t : SSt) (hr : Rel s t) (a : PVal) (k : Nat) (ha : CellRel a (.data k)) (v : PVal) :
    ∃ s', s.store a v = .ok s' := by
  obtain ⟨h1, h2⟩ := toInt_rel a k ha
  refine ⟨{ s with mem := s.mem.set k v }, ?_⟩
  unfold St.store
  rw [h1]
  simp only [bind, Except.bind]
  rw [if_pos (by rw [hr.len]; exact h2)]

theorem plus1_total (p : PVal) (n : Nat) (h : CellRel p (.data n)) : ∃ q, plus1 p = .ok q := by
  cases p with
  | int k => exact ⟨_, rfl⟩
  | bv w v => exact ⟨_, rfl⟩
  | inst i => exact h.elim

/-- On page zero a call returns, and does what the machine does, if the operand of `and` and `tad` has been written by `dca`, by `isz` or by
`poke_mem` (it is a `Word`) and the program counter has not been loaded from a cell that was never written. -/
theorem C58_page_zero_partial (pz : Bool) (s : St) (t : SSt) (hr : Rel s t) (hc : CoveredAt pz s t) (h128 : t.pc < 128)
    (hpc : ∃ w v, s.pc = .bv w v)
    (hop : ∀ m, (t.mem t.pc = .code (.and_ m) ∨ t.mem t.pc = .code (.tad m)) → ∀ a t', effective t m = some (a, t') →
      ∃ v, s.mem[a]? = some (.bv 12 v))
    (t' : SSt) (ht : step t = some t') : ∃ s', s.step pz = .ok s' ∧ Rel s' t' := by
  suffices hsuf : ∃ s', s.step pz = .ok s' by
    obtain ⟨s', hs'⟩ := hsuf
    exact ⟨s', hs', C58_step_partial pz s t hr hc s' hs' t' ht⟩
  unfold St.step
  rw [hr.running]
  unfold step at ht
  cases hrun : t.running with
  | false => exact ⟨s, rfl⟩
  | true =>
    rw [hrun] at ht
    simp only [if_true] at ht
    simp only [Bool.not_true, Bool.false_eq_true, if_false, bind, Except.bind]
    obtain ⟨w, v, hw⟩ := hpc
    have hrpc := hr.pc
    rw [hw] at hrpc
    obtain ⟨rfl, _, h12⟩ := hrpc
    obtain ⟨c, hl, _, hrel⟩ := load_total s t hr s.pc t.pc hr.pc
    rw [hl]
    obtain ⟨pc, hp⟩ := plus1_total s.pc t.pc hr.pc
    rw [hp]
    simp only []
    cases hm : t.mem t.pc with
    | data d => rw [hm] at ht; cases ht
    | code i =>
      rw [hm] at ht hrel
      simp only [] at ht
      have hcov := hc hrun i hm
      cases c with
      | int n => exact hrel.elim
      | bv w v => exact hrel.elim
      | inst j =>
        have : j = i := hrel
        subst this
        simp only []
        suffices hx : ∃ r, s.exec pz j pc = .ok r by
          obtain ⟨r, hx⟩ := hx
          rw [hx]
          exact ⟨_, rfl⟩
        have hf1 : Fits s.pc (t.pc + 1) := .inl (by omega)
        obtain ⟨hp1, _⟩ := plus1_rel s.pc t.pc hr.pc hf1 pc hp
        obtain ⟨pp, hpp⟩ := plus1_total pc _ hp1
        have ea : ∀ m, j ∈ [Inst.and_ m, .tad m, .isz m, .dca m, .jms m, .jmp m] → ∀ k t1, effective t m = some (k, t1) →
            ∃ a, s.addr pz m pc = .ok a ∧ CellRel a (.data k) ∧ t1 = t := by
          intro m hmem k t1 he
          obtain ⟨a, ha⟩ := addr_page0 s t hr pz m w pc hp hw h12 h128 k t1 he
          obtain ⟨ht1, hor⟩ := addr_rel s t hr pz m pc a hp1 (.inl (by omega)) (hcov.auto m hmem) ha k t1 he
          rcases hor with hor | ⟨_, hge, _⟩
          · exact ⟨a, ha, hor, ht1⟩
          · omega
        cases j with
        | and_ m =>
          simp only [exec, bind, Option.bind] at ht
          cases he : effective t m with
          | none => rw [he] at ht; cases ht
          | some x =>
            obtain ⟨a, ha, hak, _⟩ := ea m (by simp) x.1 x.2 he
            obtain ⟨v, hv, hv1, _⟩ := load_total s t hr a _ hak
            obtain ⟨u, hu⟩ := hop m (.inl hm) x.1 x.2 he
            rw [hv1] at hu
            cases hu
            simp only [St.exec, bind, Except.bind, ha, hv, andData]
            exact ⟨_, rfl⟩
        | tad m =>
          simp only [exec, bind, Option.bind] at ht
          cases he : effective t m with
          | none => rw [he] at ht; cases ht
          | some x =>
            obtain ⟨a, ha, hak, _⟩ := ea m (by simp) x.1 x.2 he
            obtain ⟨v, hv, hv1, _⟩ := load_total s t hr a _ hak
            obtain ⟨u, hu⟩ := hop m (.inr hm) x.1 x.2 he
            rw [hv1] at hu
            cases hu
            simp only [St.exec, bind, Except.bind, ha, hv, concat0]
            exact ⟨_, rfl⟩
        | isz m =>
          simp only [exec, bind, Option.bind] at ht
          cases he : effective t m with
          | none => rw [he] at ht; cases ht
          | some x =>
            rw [he] at ht
            simp only [] at ht
            obtain ⟨a, ha, hak, ht1⟩ := ea m (by simp) x.1 x.2 he
            obtain ⟨v, hv, hv1, hvr⟩ := load_total s t hr a _ hak
            rw [ht1] at ht
            cases hd : (t.mem x.1).data? with
            | none => rw [hd] at ht; cases ht
            | some d =>
              rw [data?_some hd] at hvr
              obtain ⟨v', hv'⟩ := plus1_total v d hvr
              obtain ⟨s1, hs1⟩ := store_total s t hr a _ hak v'
              have hi : ∃ n, toInt v' = .ok n := by
                cases v with
                | int k => cases hv'; exact ⟨_, rfl⟩
                | bv w v => cases hv'; exact ⟨_, rfl⟩
                | inst i => exact hvr.elim
              obtain ⟨n, hn⟩ := hi
              simp only [St.exec, bind, Except.bind, ha, hv, hv', hs1, hn, hpp]
              split
              · exact ⟨_, rfl⟩
              · exact ⟨_, rfl⟩
        | dca m =>
          simp only [exec, bind, Option.bind] at ht
          cases he : effective t m with
          | none => rw [he] at ht; cases ht
          | some x =>
            obtain ⟨a, ha, hak, _⟩ := ea m (by simp) x.1 x.2 he
            obtain ⟨s1, hs1⟩ := store_total s t hr a _ hak (.bv 12 s.acc.toNat)
            simp only [St.exec, bind, Except.bind, ha, hs1]
            exact ⟨_, rfl⟩
        | jmp m =>
          simp only [exec, bind, Option.bind] at ht
          cases he : effective t m with
          | none => rw [he] at ht; cases ht
          | some x =>
            obtain ⟨a, ha, _⟩ := ea m (by simp) x.1 x.2 he
            simp only [St.exec, bind, Except.bind, ha]
            exact ⟨_, rfl⟩
        | jms m =>
          simp only [exec, bind, Option.bind] at ht
          cases he : effective t m with
          | none => rw [he] at ht; cases ht
          | some x =>
            obtain ⟨a, ha, hak, _⟩ := ea m (by simp) x.1 x.2 he
            obtain ⟨s1, hs1⟩ := store_total s t hr a _ hak pc
            obtain ⟨q, hq⟩ := plus1_total a _ hak
            simp only [St.exec, bind, Except.bind, ha, hs1, hq]
            exact ⟨_, rfl⟩
        | iot m => exact ⟨_, rfl⟩
        | opr1 o => exact ⟨_, rfl⟩
        | opr2 o =>
          simp only [St.exec, bind, Except.bind, hpp]
          split
          · exact ⟨_, rfl⟩
          · exact ⟨_, rfl⟩

/-! ## run() and HLT -/

/-- A call of a running machine stops it exactly when the instruction at the program counter is one of group 2 with HLT. -/
theorem C58_halt (pz : Bool) (s s' : St) (hr : s.running = true) (h : s.step pz = .ok s') :
    s'.running = false ↔ ∃ o, s.load s.pc = .ok (.inst (.opr2 o)) ∧ o.hlt = true := by
  simp only [St.step, hr, Bool.not_true, Bool.false_eq_true, if_false, bind, Except.bind] at h
  cases hl : s.load s.pc with
  | error e => rw [hl] at h; cases h
  | ok c =>
    rw [hl] at h
    cases hp : plus1 s.pc with
    | error e => simp only [hp] at h; cases h
    | ok pc =>
      simp only [hp] at h
      cases c with
      | int n => cases h
      | bv w v => cases h
      | inst i =>
        simp only at h
        cases he : s.exec pz i pc with
        | error e => rw [he] at h; cases h
        | ok r =>
          simp only [he, Except.ok.injEq] at h
          subst h
          have key : ∀ {a d} {s1 : St}, s.store a d = .ok s1 → s1.running = true := by
            intro a d s1 hs
            simp only [St.store, bind, Except.bind] at hs
            cases ha : toInt a with
            | error e => rw [ha] at hs; cases hs
            | ok n =>
              simp only [ha] at hs
              split at hs
              · cases hs; exact hr
              · cases hs
          cases i with
          | opr2 o =>
            simp only [St.exec, bind, Except.bind] at he
            repeat' split at he
            all_goals first | cases he | skip
            all_goals
              cases ho : o.hlt <;> cases hc : o.cla <;> simp [St.group2, ho, hc, hr]
          | opr1 o => cases he; simp [hr]
          | iot m => cases he; simp [hr]
          | jmp m =>
            simp only [St.exec, bind, Except.bind] at he
            split at he <;> cases he
            simp [hr]
          | and_ m =>
            simp only [St.exec, bind, Except.bind] at he
            repeat' split at he
            all_goals first | cases he | skip
            simp [hr]
          | tad m =>
            simp only [St.exec, bind, Except.bind] at he
            repeat' split at he
            all_goals first | cases he | skip
            simp [hr]
          | isz m =>
            simp only [St.exec, bind, Except.bind] at he
            repeat' split at he
            all_goals first | cases he | skip
            all_goals simp [key (by assumption)]
          | dca m =>
            simp only [St.exec, bind, Except.bind] at he
            repeat' split at he
            all_goals first | cases he | skip
            all_goals simp [key (by assumption)]
          | jms m =>
            simp only [St.exec, bind, Except.bind] at he
            repeat' split at he
            all_goals first | cases he | skip
            all_goals simp [key (by assumption)]

/-- The machine runs for `n` calls and is stopped by the last of them: all states before are those of a running machine. -/
def StopsAfter (pz : Bool) (s : St) (n : Nat) (s' : St) : Prop :=
  s.steps pz n = .ok s' ∧ s'.running = false ∧ ∀ k, k < n → ∃ t, s.steps pz k = .ok t ∧ t.running = true

/-- The states before are those of a running machine, one call further. -/
theorem before_succ {pz : Bool} {s : St} {n : Nat} :
    (∀ k, k < n + 1 → ∃ t, s.steps pz k = .ok t ∧ t.running = true) ↔
      s.running = true ∧ ∀ k, k < n → ∃ s1, s.step pz = .ok s1 ∧ ∃ t, s1.steps pz k = .ok t ∧ t.running = true := by
  constructor
  · intro h
    refine ⟨?_, fun k hk => ?_⟩
    · obtain ⟨t, h1, h2⟩ := h 0 (by omega)
      cases h1; exact h2
    · obtain ⟨t, h1, h2⟩ := h (k + 1) (by omega)
      simp only [St.steps, bind, Except.bind] at h1
      cases hs : s.step pz with
      | error e => rw [hs] at h1; cases h1
      | ok s1 => rw [hs] at h1; exact ⟨s1, rfl, t, h1, h2⟩
  · rintro ⟨h0, h⟩ k hk
    cases k with
    | zero => exact ⟨s, rfl, h0⟩
    | succ k =>
      obtain ⟨s1, hs, t, h1, h2⟩ := h k (by omega)
      exact ⟨t, by simp only [St.steps, bind, Except.bind, hs, h1], h2⟩

theorem stopsAfter_zero {pz : Bool} {s s' : St} : StopsAfter pz s 0 s' ↔ s = s' ∧ s.running = false := by
  constructor
  · rintro ⟨h, h', _⟩
    cases h
    exact ⟨rfl, h'⟩
  · rintro ⟨rfl, h⟩
    exact ⟨rfl, h, fun k hk => by omega⟩

theorem stopsAfter_succ {pz : Bool} {s s' : St} {n : Nat} :
    StopsAfter pz s (n + 1) s' ↔ s.running = true ∧ ∃ s1, s.step pz = .ok s1 ∧ StopsAfter pz s1 n s' := by
  constructor
  · rintro ⟨h, h', hb⟩
    simp only [St.steps, bind, Except.bind] at h
    cases hs : s.step pz with
    | error e => rw [hs] at h; cases h
    | ok s1 =>
      rw [hs] at h
      obtain ⟨h0, hb⟩ := before_succ.1 hb
      refine ⟨h0, s1, rfl, h, h', fun k hk => ?_⟩
      obtain ⟨s1', hs', r⟩ := hb k hk
      rw [hs, Except.ok.injEq] at hs'
      exact hs' ▸ r
  · rintro ⟨h0, s1, hs, h, h', hb⟩
    exact ⟨by simp only [St.steps, bind, Except.bind, hs, h], h', before_succ.2 ⟨h0, fun k hk => ⟨s1, hs, hb k hk⟩⟩⟩

theorem run_ok {pz : Bool} {s' : St} : ∀ (n : Nat) (s : St), s.run pz n = some (.ok s') ↔ ∃ m, m ≤ n ∧ StopsAfter pz s m s' := by
  intro n
  induction n with
  | zero =>
    intro s
    simp only [St.run, Nat.le_zero, exists_eq_left, stopsAfter_zero]
    cases hr : s.running <;> simp
  | succ n ih =>
    intro s
    simp only [St.run]
    constructor
    · intro h
      cases hr : s.running with
      | false =>
        simp only [hr, Bool.false_eq_true, if_false, Option.some.injEq, Except.ok.injEq] at h
        exact ⟨0, by omega, stopsAfter_zero.2 ⟨h, hr⟩⟩
      | true =>
        simp only [hr, if_true] at h
        cases hs : s.step pz with
        | error e => rw [hs] at h; simp at h
        | ok s1 =>
          rw [hs] at h
          obtain ⟨m, hm, h⟩ := (ih s1).1 h
          exact ⟨m + 1, by omega, stopsAfter_succ.2 ⟨hr, s1, hs, h⟩⟩
    · rintro ⟨m, hm, h⟩
      cases m with
      | zero =>
        obtain ⟨rfl, hr⟩ := stopsAfter_zero.1 h
        simp [hr]
      | succ m =>
        obtain ⟨hr, s1, hs, h⟩ := stopsAfter_succ.1 h
        simp only [hr, if_true, hs]
        exact (ih s1).2 ⟨m, by omega, h⟩

/-- The machine runs for `n` calls and the next call raises. -/
def RaisesAfter (pz : Bool) (s : St) (n : Nat) (e : Err) : Prop :=
  ∃ t, s.steps pz n = .ok t ∧ t.running = true ∧ t.step pz = .error e ∧ ∀ k, k < n → ∃ u, s.steps pz k = .ok u ∧ u.running = true

theorem raisesAfter_zero {pz : Bool} {s : St} {e : Err} : RaisesAfter pz s 0 e ↔ s.running = true ∧ s.step pz = .error e := by
  constructor
  · rintro ⟨t, h, h1, h2, _⟩
    cases h
    exact ⟨h1, h2⟩
  · rintro ⟨h1, h2⟩
    exact ⟨s, rfl, h1, h2, fun k hk => by omega⟩

theorem raisesAfter_succ {pz : Bool} {s : St} {n : Nat} {e : Err} :
    RaisesAfter pz s (n + 1) e ↔ s.running = true ∧ ∃ s1, s.step pz = .ok s1 ∧ RaisesAfter pz s1 n e := by
  constructor
  · rintro ⟨t, h, h1, h2, hb⟩
    simp only [St.steps, bind, Except.bind] at h
    cases hs : s.step pz with
    | error e => rw [hs] at h; cases h
    | ok s1 =>
      rw [hs] at h
      obtain ⟨h0, hb⟩ := before_succ.1 hb
      refine ⟨h0, s1, rfl, t, h, h1, h2, fun k hk => ?_⟩
      obtain ⟨s1', hs', r⟩ := hb k hk
      rw [hs, Except.ok.injEq] at hs'
      exact hs' ▸ r
  · rintro ⟨h0, s1, hs, t, h, h1, h2, hb⟩
    exact ⟨t, by simp only [St.steps, bind, Except.bind, hs, h], h1, h2, before_succ.2 ⟨h0, fun k hk => ⟨s1, hs, hb k hk⟩⟩⟩

theorem run_error {pz : Bool} {e : Err} : ∀ (n : Nat) (s : St), s.run pz n = some (.error e) ↔ ∃ m, m < n ∧ RaisesAfter pz s m e := by
  intro n
  induction n with
  | zero =>
    intro s
    simp only [St.run, Nat.not_lt_zero, false_and, exists_false, iff_false]
    cases hr : s.running <;> simp
  | succ n ih =>
    intro s
    simp only [St.run]
    constructor
    · intro h
      cases hr : s.running with
      | false => simp [hr] at h
      | true =>
        simp only [hr, if_true] at h
        cases hs : s.step pz with
        | error e' =>
          simp only [hs, Option.some.injEq, Except.error.injEq] at h
          subst h
          exact ⟨0, by omega, raisesAfter_zero.2 ⟨hr, hs⟩⟩
        | ok s1 =>
          rw [hs] at h
          obtain ⟨m, hm, h⟩ := (ih s1).1 h
          exact ⟨m + 1, by omega, raisesAfter_succ.2 ⟨hr, s1, hs, h⟩⟩
    · rintro ⟨m, hm, h⟩
      cases m with
      | zero =>
        obtain ⟨hr, hs⟩ := raisesAfter_zero.1 h
        simp [hr, hs]
      | succ m =>
        obtain ⟨hr, s1, hs, h⟩ := raisesAfter_succ.1 h
        simp only [hr, if_true, hs]
        exact (ih s1).2 ⟨m, by omega, h⟩

/-- Of the instructions executed until the machine stops, the last one is HLT and no other one is. -/
theorem stops_at_halt {pz : Bool} {s' : St} : ∀ (n : Nat) (s : St), StopsAfter pz s n s' → ∀ k, k < n → ∃ t, s.steps pz k = .ok t ∧
      ((∃ o, t.load t.pc = .ok (.inst (.opr2 o)) ∧ o.hlt = true) ↔ k + 1 = n) := by
  intro n
  induction n with
  | zero => intro s _ k hk; omega
  | succ n ih =>
    intro s h k hk
    obtain ⟨hr, s1, hs, h⟩ := stopsAfter_succ.1 h
    cases k with
    | zero =>
      refine ⟨s, rfl, ?_⟩
      rw [← C58_halt pz s s1 hr hs]
      cases n with
      | zero =>
        obtain ⟨_, h1⟩ := stopsAfter_zero.1 h
        simp [h1]
      | succ n =>
        have h1 := (stopsAfter_succ.1 h).1
        simp [h1]
    | succ k =>
      obtain ⟨t, h1, h2⟩ := ih s1 h k (by omega)
      exact ⟨t, by simp only [St.steps, bind, Except.bind, hs, h1], h2.trans (by omega)⟩

/-- run() returns exactly the state in which the machine stops for the first time; it raises exactly when a call made before that raises,
and then what the call raises; and of the instructions it executes the last one is HLT and no other one is. -/
theorem C58_run_stops (pz : Bool) (s s' : St) :
    ((∃ n, s.run pz n = some (.ok s')) ↔ ∃ n, StopsAfter pz s n s') ∧
    (∀ e, (∃ n, s.run pz n = some (.error e)) ↔ ∃ n, RaisesAfter pz s n e) ∧
    (∀ n, StopsAfter pz s n s' → ∀ k, k < n → ∃ t, s.steps pz k = .ok t ∧
      ((∃ o, t.load t.pc = .ok (.inst (.opr2 o)) ∧ o.hlt = true) ↔ k + 1 = n)) :=
  ⟨⟨fun ⟨n, h⟩ => let ⟨m, _, h⟩ := (run_ok n s).1 h; ⟨m, h⟩, fun ⟨n, h⟩ => ⟨n, (run_ok n s).2 ⟨n, Nat.le_refl n, h⟩⟩⟩,
    fun e => ⟨fun ⟨n, h⟩ => let ⟨m, _, h⟩ := (run_error n s).1 h; ⟨m, h⟩, fun ⟨n, h⟩ => ⟨n + 1, (run_error (n + 1) s).2 ⟨n, Nat.lt_succ_self n, h⟩⟩⟩,
    fun n h => stops_at_halt n s h⟩

/-- Once some number of calls leaves the machine stopped, run() returns that state. -/
theorem C58_run_returns (pz : Bool) {s' : St} (hs' : s'.running = false) : ∀ (n : Nat) (s : St), s.steps pz n = .ok s' → s.run pz n = some (.ok s') := by
  have stopped : ∀ (n : Nat) (s t : St), s.running = false → s.steps pz n = .ok t → t = s := by
    intro n
    induction n with
    | zero => intro s t _ h; cases h; rfl
    | succ n ih =>
      intro s t hr h
      simp only [St.steps, St.step, hr, bind, Except.bind] at h
      exact ih s t hr h
  intro n
  induction n with
  | zero => intro s h; cases h; simp [St.run, hs']
  | succ n ih =>
    intro s h
    simp only [St.run]
    cases hr : s.running with
    | false => rw [stopped (n + 1) s s' hr h]; simp
    | true =>
      simp only [St.steps, bind, Except.bind] at h
      cases hst : s.step pz with
      | error e => rw [hst] at h; cases h
      | ok s1 =>
        rw [hst] at h
        simpa using ih s1 h

end Peak.Pdp8
