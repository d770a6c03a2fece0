import Verif.Spec.Pdp8Asm
import Verif.Props.Pdp8Ex
/-!
# C74: the PDP-8 builders
-/

namespace Peak.Pdp8.Asm

open Spec

theorem step_opr1 {s : St} {w n : Nat} {o : OPR1} (h : Before s (.opr1 o) w n) (pz : Bool) :
    s.step pz = .ok { s with acc := (Pdp8.group1 o s.acc s.lnk).1, lnk := (Pdp8.group1 o s.acc s.lnk).2, pc := .bv w ((n + 1) % 2 ^ w) } := by
  rw [step_gen pz s w n h.pc h.running _ h.code]
  rfl

/-- A builder and its effect. -/
def Does (b : Except Err Inst) (f : Nat → Nat → Nat × Nat) : Prop :=
  ∃ i, b = .ok i ∧ ∀ (pz : Bool) (s : St) (w n : Nat), Before s i w n →
    ∃ s', s.step pz = .ok s' ∧ (s'.acc.toNat, b2n s'.lnk) = f s.acc.toNat (b2n s.lnk) ∧
      s'.pc = .bv w ((n + 1) % 2 ^ w) ∧ s'.mem = s.mem ∧ s'.running = true

theorem does_of {b : Except Err Inst} {f : Nat → Nat → Nat × Nat} (o : OPR1) (hb : b = .ok (.opr1 o))
    (h : ∀ (a : Word) (l : Bool), AL (Pdp8.group1 o a l) (f a.toNat (b2n l))) : Does b f :=
  ⟨_, hb, fun pz s _ _ hs => ⟨_, step_opr1 hs pz, Prod.ext (h s.acc s.lnk).1 (h s.acc s.lnk).2, rfl, rfl, hs.running⟩⟩

theorem rotl_eq {x y b : Nat} (h : x = 4096 * b + y) (hb : b < 2) (hy : y < 4096) : rotl x = 2 * y + b := by
  subst h
  obtain rfl | rfl : b = 0 ∨ b = 1 := by omega
  · simp only [rotl]; omega
  · simp only [rotl]; omega

theorem b2n_le (l : Bool) : b2n l ≤ 1 := by cases l <;> decide

/-- C74, group 1: each builder without keywords has the effect its comment gives, on every state; nothing else but the program counter changes. -/
theorem C74_effects : ∀ p ∈ effects, Does p.1 p.2 := by
  have rot : ∀ (o : OPR1) (f : Nat → Nat → Nat × Nat) (b : Except Err Inst), b = .ok (.opr1 o) → o.iac = false → (o.twice = true → o.ral = true ∨ o.rar = true) →
      (∀ a l, a < 4096 → l ≤ 1 → Spec.group1 o a l = some (f a l)) → Does b f :=
    fun o f b hb hi hs hg => does_of o hb (fun a l => group1_AL o a l (fun h => by rw [hi] at h; cases h) hs _ (hg _ _ a.isLt (b2n_le l)))
  intro p hp
  simp only [effects, List.mem_cons, List.not_mem_nil, or_false] at hp
  rcases hp with rfl | rfl | rfl | rfl | rfl | rfl | rfl | rfl | rfl | rfl | rfl | rfl | rfl | rfl | rfl
  · refine rot {} _ _ rfl rfl (fun h => by cases h) (fun a l ha hl => ?_)
    exact congrArg some (Prod.ext (by simp only [split, both]; simp; omega) (by simp only [split, both]; simp; omega))
  · refine rot { cla := true } _ _ rfl rfl (fun h => by cases h) (fun a l ha hl => ?_)
    exact congrArg some (Prod.ext (by simp only [split, both]; simp) (by simp only [split, both]; simp; omega))
  · refine rot { cma := true } _ _ rfl rfl (fun h => by cases h) (fun a l ha hl => ?_)
    exact congrArg some (Prod.ext (by simp only [split, both]; simp; omega) (by simp only [split, both]; simp; omega))
  · refine rot { cla := true, cma := true } _ _ rfl rfl (fun h => by cases h) (fun a l ha hl => ?_)
    exact congrArg some (Prod.ext (by simp only [split, both]; simp) (by simp only [split, both]; simp; omega))
  · refine rot { cll := true } _ _ rfl rfl (fun h => by cases h) (fun a l ha hl => ?_)
    exact congrArg some (Prod.ext (by simp only [split, both]; simp; omega) (by simp only [split, both]; simp; omega))
  · refine rot { cml := true } _ _ rfl rfl (fun h => by cases h) (fun a l ha hl => ?_)
    exact congrArg some (Prod.ext (by simp only [split, both]; simp; omega) (by simp only [split, both]; simp; omega))
  · refine rot { cll := true, cml := true } _ _ rfl rfl (fun h => by cases h) (fun a l ha hl => ?_)
    exact congrArg some (Prod.ext (by simp only [split, both]; simp; omega) (by simp only [split, both]; simp; omega))
  · exact does_of { iac := true } rfl (fun a l => ⟨by show (a + 1).toNat = _; rw [BitVec.toNat_add]; rfl, rfl⟩)
  · refine rot { rar := true } _ _ rfl rfl (fun h => by cases h) (fun a l ha hl => ?_)
    obtain ⟨h, b, c, rfl, hb, hc⟩ : ∃ h b c, a = 4 * h + 2 * c + b ∧ b < 2 ∧ c < 2 := ⟨a / 4, a % 2, a / 2 % 2, by omega, by omega, by omega⟩
    obtain rfl | rfl : l = 0 ∨ l = 1 := by omega
    all_goals obtain rfl | rfl : b = 0 ∨ b = 1 := by omega
    all_goals obtain rfl | rfl : c = 0 ∨ c = 1 := by omega
    all_goals exact congrArg some (Prod.ext (by simp only [split, both, rotr]; simp; omega) (by simp only [split, both, rotr]; simp; omega))
  · refine rot { rar := true, twice := true } _ _ rfl rfl (fun _ => .inr rfl) (fun a l ha hl => ?_)
    obtain ⟨h, b, c, rfl, hb, hc⟩ : ∃ h b c, a = 4 * h + 2 * c + b ∧ b < 2 ∧ c < 2 := ⟨a / 4, a % 2, a / 2 % 2, by omega, by omega, by omega⟩
    obtain rfl | rfl : l = 0 ∨ l = 1 := by omega
    all_goals obtain rfl | rfl : b = 0 ∨ b = 1 := by omega
    all_goals obtain rfl | rfl : c = 0 ∨ c = 1 := by omega
    all_goals exact congrArg some (Prod.ext (by simp only [split, both, rotr]; simp; omega) (by simp only [split, both, rotr]; simp; omega))
  · refine rot { cll := true, rar := true } _ _ rfl rfl (fun h => by cases h) (fun a l ha hl => ?_)
    obtain ⟨h, b, c, rfl, hb, hc⟩ : ∃ h b c, a = 4 * h + 2 * c + b ∧ b < 2 ∧ c < 2 := ⟨a / 4, a % 2, a / 2 % 2, by omega, by omega, by omega⟩
    obtain rfl | rfl : l = 0 ∨ l = 1 := by omega
    all_goals obtain rfl | rfl : b = 0 ∨ b = 1 := by omega
    all_goals obtain rfl | rfl : c = 0 ∨ c = 1 := by omega
    all_goals exact congrArg some (Prod.ext (by simp only [split, both, rotr]; simp; omega) (by simp only [split, both, rotr]; simp; omega))
  · refine rot { ral := true } _ _ rfl rfl (fun h => by cases h) (fun a l ha hl => ?_)
    have e : Spec.group1 { ral := true } a l = some (split (rotl (both a l))) := rfl
    rw [e, rotl_eq (y := a) (b := l) (by simp only [both]; omega) (by omega) ha]
    exact congrArg some (Prod.ext (by simp only [split]; omega) (by simp only [split]; omega))
  · refine rot { ral := true, twice := true } _ _ rfl rfl (fun _ => .inl rfl) (fun a l ha hl => ?_)
    have e : Spec.group1 { ral := true, twice := true } a l = some (split (rotl (rotl (both a l)))) := rfl
    rw [e, rotl_eq (x := both a l) (y := a) (b := l) (by simp only [both]; omega) (by omega) ha,
      rotl_eq (y := 2 * (a % 2048) + l) (b := a / 2048) (by omega) (by omega) (by omega)]
    exact congrArg some (Prod.ext (by simp only [split]; omega) (by
      have e1 : a % 2048 / 1024 = a / 1024 % 2 := by omega
      have e2 : a / 2048 < 2 := by omega
      have e3 : (2 * (2 * (a % 2048) + l) + a / 2048) / 4096 = a % 2048 / 1024 := by
        generalize a / 2048 = q at e2
        have e4 : a % 2048 < 2048 := Nat.mod_lt _ (by decide)
        generalize a % 2048 = r at e4
        omega
      simp only [split, e3, e1]; omega))
  · refine rot { cll := true, ral := true } _ _ rfl rfl (fun h => by cases h) (fun a l ha hl => ?_)
    have e : Spec.group1 { cll := true, ral := true } a l = some (split (rotl (both a 0))) := rfl
    rw [e, rotl_eq (y := a) (b := 0) (by simp only [both]) (by omega) ha]
    exact congrArg some (Prod.ext (by simp only [split]; omega) (by simp only [split]; omega))
  · refine does_of { cma := true, iac := true } rfl (fun a l => ⟨?_, rfl⟩)
    show (~~~a + 1).toNat = (4096 - a.toNat) % 4096
    have := a.isLt
    rw [BitVec.toNat_add, BitVec.toNat_not]
    show (2 ^ 12 - 1 - a.toNat + 1) % 2 ^ 12 = _
    omega

/-- C74 fails for `glk`: it passes a keyword that `opr1` does not have and always raises TypeError. -/
theorem C74_violated_glk : glk = .error .typeError := rfl

theorem step_opr2 {s : St} {w n : Nat} {o : OPR2} (h : Before s (.opr2 o) w n) (pz : Bool) :
    s.step pz = .ok { s.group2 o with pc := .bv w (((n + 1) % 2 ^ w + if s.skips o then 1 else 0) % 2 ^ w) } := by
  rw [step_gen pz s w n h.pc h.running _ h.code]
  simp only [St.exec, bind, Except.bind]
  cases s.skips o with
  | false => simp
  | true => simp [plus1]

theorem next_eq (w n : Nat) (c : Prop) [Decidable c] : ((n + 1) % 2 ^ w + if c then 1 else 0) % 2 ^ w = (n + if c then 2 else 1) % 2 ^ w := by
  split <;> simp [Nat.add_assoc]

/-- A builder of a test: only the program counter changes, and the next instruction is skipped exactly if `c` holds of the accumulator and the link. -/
def Skips (b : Except Err Inst) (c : Nat → Nat → Prop) : Prop :=
  ∃ i, b = .ok i ∧ ∀ (pz : Bool) (s : St) (w n : Nat), Before s i w n →
    (c s.acc.toNat (b2n s.lnk) → s.step pz = .ok { s with pc := .bv w ((n + 2) % 2 ^ w) }) ∧
    (¬ c s.acc.toNat (b2n s.lnk) → s.step pz = .ok { s with pc := .bv w ((n + 1) % 2 ^ w) })

theorem skips_of {b : Except Err Inst} {c : Nat → Nat → Prop} (o : OPR2) (hb : b = .ok (.opr2 o)) (hc : o.cla = false) (hh : o.hlt = false)
    (h : ∀ s : St, s.skips o = true ↔ c s.acc.toNat (b2n s.lnk)) : Skips b c := by
  refine ⟨_, hb, fun pz s w n hs => ?_⟩
  have hg : s.group2 o = s := by simp only [St.group2, hc, hh, Bool.false_eq_true, if_false]
  rw [step_opr2 hs pz, next_eq, hg]
  constructor
  · intro h1; rw [if_pos ((h s).mpr h1)]
  · intro h1; rw [if_neg (fun h2 => h1 ((h s).mp h2))]

theorem zero_iff (a : Word) : a = 0#12 ↔ a.toNat = 0 := ⟨fun h => by rw [h]; rfl, fun h => BitVec.eq_of_toNat_eq h⟩

/-- C74, group 2: the tests of the accumulator skip exactly when their comments say. -/
theorem C74_skips : ∀ p ∈ accSkips, Skips p.1 (fun a _ => p.2 a) := by
  intro p hp
  simp only [accSkips, List.mem_cons, List.not_mem_nil, or_false] at hp
  rcases hp with rfl | rfl | rfl | rfl | rfl
  · exact skips_of { sza := true } rfl rfl rfl (fun s => by simp [St.skips, zero_iff])
  · exact skips_of { sza := true, skip := true } rfl rfl rfl (fun s => by simp [St.skips, zero_iff])
  · exact skips_of { sma := true } rfl rfl rfl (fun s => by simp [St.skips, msb_iff])
  · exact skips_of { sma := true, skip := true } rfl rfl rfl (fun s => by simp [St.skips, msb_iff])
  · exact skips_of { skip := true } rfl rfl rfl (fun s => by simp [St.skips])

/-- C74 fails for the tests of the link: they skip exactly when they should not, on every state. -/
theorem C74_violated_link : ∀ p ∈ lnkSkips, Skips p.1 (fun _ l => ¬ p.2 l) := by
  intro p hp
  simp only [lnkSkips, List.mem_cons, List.not_mem_nil, or_false] at hp
  rcases hp with rfl | rfl
  · exact skips_of { snl := true, skip := true } rfl rfl rfl (fun s => by cases h : s.lnk <;> simp [St.skips, h, b2n])
  · exact skips_of { snl := true } rfl rfl rfl (fun s => by cases h : s.lnk <;> simp [St.skips, h, b2n])

/-- C74: combined tests. The conditions of the left column skip if one of them holds, those of the right column if all of them do (the tests of the link are left out). -/
theorem C74_combined_partial (x y : Bool) :
    (x || y) = true →
    Skips (opr2 [("sma", x), ("sza", y)]) (fun a _ => (x = true ∧ 2048 ≤ a) ∨ (y = true ∧ a = 0)) ∧
    Skips (opr2 [("spa", x), ("sna", y)]) (fun a _ => (x = true → a < 2048) ∧ (y = true → a ≠ 0)) := by
  intro h
  constructor
  · refine skips_of { sma := x, sza := y } (by cases x <;> cases y <;> rfl) rfl rfl (fun s => ?_)
    cases x <;> cases y <;> simp [St.skips, zero_iff, msb_iff] at h ⊢
  · refine skips_of { sma := x, sza := y, skip := true } (by cases x <;> cases y <;> first | rfl | cases h) rfl rfl (fun s => ?_)
    cases x <;> cases y <;> simp [St.skips, zero_iff, msb_iff] at h ⊢

/-- C74: `hlt` stops the machine after this instruction and changes nothing else. -/
theorem C74_halt : ∃ i, hlt = .ok i ∧ ∀ (pz : Bool) (s : St) (w n : Nat), Before s i w n →
    s.step pz = .ok { s with pc := .bv w ((n + 1) % 2 ^ w), running := false } := by
  refine ⟨.opr2 { hlt := true }, rfl, fun pz s w n hs => ?_⟩
  rw [step_opr2 hs pz]
  simp [St.group2, St.skips]

/-! ## Memory -/

/-- A reference by an instruction on page zero: the location is on page zero in both page modes. -/
theorem addr_mri {s : St} {pz : Bool} {n : Nat} (hn : n < 128) {a : Int} (h : 0 ≤ a ∧ a < 128) {i p : Bool} {t : Nat} (ht : Refers s a i t) :
    ∃ w, 12 ≤ w ∧ s.addr pz (mri a i p) (.bv 12 (n + 1)) = .ok (.bv w t) := by
  obtain ⟨k, rfl⟩ := Int.eq_ofNat_of_zero_le h.1
  have hk : k < 128 := by omega
  have hm : (BitVec.ofInt 7 (k : Int)).toNat = k := by
    show (BitVec.ofNat 7 k).toNat = k
    rw [BitVec.toNat_ofNat]; exact Nat.mod_eq_of_lt hk
  have h1 : (n + 1 + (2 ^ 12 - 1)) % 2 ^ 12 / 2 ^ 7 = 0 := by omega
  have hpg : ∀ q : Bool, page pz ⟨i, q, BitVec.ofInt 7 (k : Int)⟩ (.bv 12 (n + 1)) = .ok (5, 0) := by
    intro q
    unfold page
    cases pz <;> cases q <;> simp only [Bool.not_false, Bool.not_true, Bool.and_true, Bool.and_false, if_true, if_false, Bool.false_eq_true, h1]
  unfold St.addr mri
  simp only [hpg, bind, Except.bind, hm, Nat.zero_mul, Nat.add_zero]
  cases i with
  | false => exact ⟨17, by decide, by simp only [Bool.false_eq_true, if_false]; rw [show t = (k : Int).toNat from ht]; rfl⟩
  | true => exact ⟨12, by decide, by simp only [if_true]; exact load_at s _ k _ ht⟩

theorem before_step {s : St} {i : Inst} {n : Nat} (h : Before s i 12 n) (hn : n < 128) (pz : Bool) (r : St × PVal)
    (hx : s.exec pz i (.bv 12 (n + 1)) = .ok r) : s.step pz = .ok { r.1 with pc := r.2 } :=
  step_at pz s n ⟨h.pc, hn, h.running⟩ i h.code r hx

theorem store_at (s : St) (w a : Nat) (d : PVal) (h : a < s.mem.length) : s.store (.bv w a) d = .ok { s with mem := s.mem.set a d } := by
  unfold St.store
  simp only [toInt, bind, Except.bind, if_pos h]

/-- C74: `and_(addr)`: acc &= mem[addr], for an address 0 … 127, direct or indirect, and an instruction on page zero. -/
theorem C74_and (pz : Bool) (s : St) (n : Nat) (hn : n < 128) (a : Int) (ha : 0 ≤ a ∧ a < 128) (i p : Bool) (t : Nat) (ht : Refers s a i t) (v : Nat)
    (hv4 : v < 4096) (hv : s.mem[t]? = some (.bv 12 v)) (h : Before s (and_ a i p) 12 n) :
    ∃ s', s.step pz = .ok s' ∧ s'.acc.toNat = s.acc.toNat &&& v ∧ s'.lnk = s.lnk ∧ s'.mem = s.mem ∧ s'.running = true ∧ s'.pc = .bv 12 (n + 1) := by
  obtain ⟨w, _, ha'⟩ := addr_mri (pz := pz) (p := p) hn ha ht
  refine ⟨_, before_step h hn pz ({ s with acc := s.acc &&& BitVec.ofNat 12 v }, .bv 12 (n + 1)) ?_, ?_, rfl, rfl, h.running, rfl⟩
  · simp only [and_, St.exec, bind, Except.bind, ha', load_at s w _ _ hv, andData]
    rfl
  · show (s.acc &&& BitVec.ofNat 12 v).toNat = _
    rw [BitVec.toNat_and, BitVec.toNat_ofNat, Nat.mod_eq_of_lt (show v < 2 ^ 12 from hv4)]

/-- C74: `tad(addr)`: acc += mem[addr]; the carry complements the link. -/
theorem C74_tad (pz : Bool) (s : St) (n : Nat) (hn : n < 128) (a : Int) (ha : 0 ≤ a ∧ a < 128) (i p : Bool) (t : Nat) (ht : Refers s a i t) (v : Nat)
    (hv4 : v < 4096) (hv : s.mem[t]? = some (.bv 12 v)) (h : Before s (tad a i p) 12 n) :
    ∃ s', s.step pz = .ok s' ∧ s'.acc.toNat = (s.acc.toNat + v) % 4096 ∧ b2n s'.lnk = (b2n s.lnk + (s.acc.toNat + v) / 4096) % 2 ∧
      s'.mem = s.mem ∧ s'.running = true ∧ s'.pc = .bv 12 (n + 1) := by
  obtain ⟨w, _, ha'⟩ := addr_mri (pz := pz) (p := p) hn ha ht
  have hl := s.acc.isLt
  have hb := b2n_le s.lnk
  have key := split_AL (accLnk s.acc s.lnk + BitVec.ofNat 13 v) ((both s.acc.toNat (b2n s.lnk) + v) % 8192) (by
    rw [BitVec.toNat_add, accLnk_toNat, BitVec.toNat_ofNat]
    omega)
  refine ⟨_, before_step h hn pz ({ s with acc := (split13 (accLnk s.acc s.lnk + BitVec.ofNat 13 v)).1, lnk := (split13 (accLnk s.acc s.lnk + BitVec.ofNat 13 v)).2 }, .bv 12 (n + 1)) ?_,
    key.1.trans ?_, key.2.trans ?_, rfl, h.running, rfl⟩
  · simp only [tad, St.exec, bind, Except.bind, ha', load_at s w _ _ hv, concat0]
    rfl
  · simp only [split, both]; omega
  · simp only [split, both]; omega

/-- C74: `dca(addr)`: mem[addr] = acc and then acc = 0. -/
theorem C74_dca (pz : Bool) (s : St) (hm : s.mem.length = 4096) (n : Nat) (hn : n < 128) (a : Int) (ha : 0 ≤ a ∧ a < 128) (i p : Bool) (t : Nat)
    (ht : Refers s a i t) (ht4 : t < 4096) (h : Before s (dca a i p) 12 n) :
    s.step pz = .ok { s with mem := s.mem.set t (.bv 12 s.acc.toNat), acc := 0, pc := .bv 12 (n + 1) } := by
  obtain ⟨w, _, ha'⟩ := addr_mri (pz := pz) (p := p) hn ha ht
  refine before_step h hn pz ({ s with mem := s.mem.set t (.bv 12 s.acc.toNat), acc := 0 }, .bv 12 (n + 1)) ?_
  simp only [dca, St.exec, bind, Except.bind, ha', store_at s w t _ (by omega)]

/-- C74: `isz(addr)`: mem[addr]++, and the next instruction is skipped if mem[addr] is now 0. -/
theorem C74_isz (pz : Bool) (s : St) (n : Nat) (hn : n < 128) (a : Int) (ha : 0 ≤ a ∧ a < 128) (i p : Bool) (t : Nat) (ht : Refers s a i t) (v : Nat)
    (hv4 : v < 4096) (hv : s.mem[t]? = some (.bv 12 v)) (h : Before s (isz a i p) 12 n) :
    s.step pz = .ok { s with mem := s.mem.set t (.bv 12 ((v + 1) % 4096)), pc := .bv 12 (if v = 4095 then n + 2 else n + 1) } := by
  obtain ⟨w, _, ha'⟩ := addr_mri (pz := pz) (p := p) hn ha ht
  have hm : t < s.mem.length := by
    rcases Nat.lt_or_ge t s.mem.length with hl | hl
    · exact hl
    · rw [List.getElem?_eq_none hl] at hv; cases hv
  refine before_step h hn pz ({ s with mem := s.mem.set t (.bv 12 ((v + 1) % 4096)) }, .bv 12 (if v = 4095 then n + 2 else n + 1)) ?_
  simp only [isz, St.exec, bind, Except.bind, ha', load_at s w _ _ hv, plus1, store_at s w t _ hm, toInt]
  by_cases hv5 : v = 4095
  · subst hv5
    rw [if_pos (by decide), if_pos rfl, Nat.mod_eq_of_lt (show n + 1 + 1 < 2 ^ 12 by omega)]
  · rw [if_neg (by omega), if_neg hv5]

/-- C74: `jmp(addr)` goes to addr. -/
theorem C74_jmp (pz : Bool) (s : St) (n : Nat) (hn : n < 128) (a : Int) (ha : 0 ≤ a ∧ a < 128) (i p : Bool) (t : Nat) (ht : Refers s a i t)
    (h : Before s (jmp a i p) 12 n) : ∃ w, s.step pz = .ok { s with pc := .bv w t } := by
  obtain ⟨w, _, ha'⟩ := addr_mri (pz := pz) (p := p) hn ha ht
  refine ⟨w, before_step h hn pz (s, .bv w t) ?_⟩
  simp only [jmp, St.exec, bind, Except.bind, ha']

/-- C74: `jms(addr)`: mem[addr] = pc (of the next instruction) and then goes to addr+1. -/
theorem C74_jms (pz : Bool) (s : St) (hm : s.mem.length = 4096) (n : Nat) (hn : n < 128) (a : Int) (ha : 0 ≤ a ∧ a < 128) (i p : Bool) (t : Nat)
    (ht : Refers s a i t) (ht4 : t < 4095) (h : Before s (jms a i p) 12 n) :
    ∃ w, s.step pz = .ok { s with mem := s.mem.set t (.bv 12 (n + 1)), pc := .bv w (t + 1) } := by
  obtain ⟨w, hw, ha'⟩ := addr_mri (pz := pz) (p := p) hn ha ht
  refine ⟨w, before_step h hn pz ({ s with mem := s.mem.set t (.bv 12 (n + 1)) }, .bv w (t + 1)) ?_⟩
  simp only [jms, St.exec, bind, Except.bind, ha', store_at s w t _ (by omega), plus1]
  have : 2 ^ 12 ≤ 2 ^ w := Nat.pow_le_pow_right (by decide) hw
  rw [Nat.mod_eq_of_lt (show t + 1 < 2 ^ w by omega)]

/-- C74 fails for larger addresses: a builder given `addr + 128` silently builds the instruction for `addr`. -/
theorem C74_violated_address (a : Int) (i p : Bool) :
    tad (a + 128) i p = tad a i p ∧ and_ (a + 128) i p = and_ a i p ∧ dca (a + 128) i p = dca a i p ∧
    isz (a + 128) i p = isz a i p ∧ jmp (a + 128) i p = jmp a i p ∧ jms (a + 128) i p = jms a i p := by
  have e : mri (a + 128) i p = mri a i p := by
    unfold mri
    rw [show BitVec.ofInt 7 (a + 128) = BitVec.ofInt 7 a from BitVec.eq_of_toInt_eq (by rw [BitVec.toInt_ofInt, BitVec.toInt_ofInt]; exact Int.add_bmod_right a 128)]
  simp only [tad, and_, dca, isz, jmp, jms, e, and_self]

/-! ## Keywords -/

/-- The fields of an instruction of group 1, by the names of the keywords. -/
def field1 (o : OPR1) : String → Bool
  | "cla" => o.cla | "cll" => o.cll | "cma" => o.cma | "cml" => o.cml
  | "rar" => o.rar | "ral" => o.ral | "twice" => o.twice | "iac" => o.iac | _ => false

theorem flag_of_mem {kw : Kw} (hn : (kw.map (·.1)).Nodup) {k : String} {b : Bool} (h : (k, b) ∈ kw) : flag kw k = b := by
  induction kw with
  | nil => cases h
  | cons p kw ih =>
    obtain ⟨q, c⟩ := p
    simp only [List.map_cons, List.nodup_cons] at hn
    rcases List.mem_cons.mp h with h1 | h1
    · cases h1
      simp [flag, List.lookup]
    · have hne : (k == q) = false := by
        simp only [beq_eq_false_iff_ne, ne_eq]
        rintro rfl
        exact hn.1 (List.mem_map.mpr ⟨(_, b), h1, rfl⟩)
      have := ih hn.2 h1
      simp only [flag, List.lookup, hne] at this ⊢
      exact this

theorem flag_of_not_mem {kw : Kw} {k : String} (h : ∀ b, (k, b) ∉ kw) : flag kw k = false := by
  induction kw with
  | nil => rfl
  | cons p kw ih =>
    obtain ⟨q, c⟩ := p
    have hne : (k == q) = false := by
      simp only [beq_eq_false_iff_ne, ne_eq]
      rintro rfl
      exact h c List.mem_cons_self
    have := ih (fun b hb => h b (List.mem_cons_of_mem _ hb))
    simp only [flag, List.lookup, hne] at this ⊢
    exact this

theorem accepts_iff (ps : List String) (kw : Kw) : accepts ps kw = true ↔ (∀ p ∈ kw, p.1 ∈ ps) ∧ (kw.map (·.1)).Nodup := by
  simp only [accepts, Bool.and_eq_true, List.all_eq_true, decide_eq_true_eq, List.contains_iff_mem]

/-- C74: `opr1` refuses a name it does not have and a name given twice, and otherwise sets each flag to the value given for it, the others to 0. -/
theorem C74_keywords1 (kw : Kw) :
    (opr1 kw = .error .typeError ↔ ¬ ((∀ p ∈ kw, p.1 ∈ ["cla", "cll", "cma", "cml", "rar", "ral", "twice", "iac"]) ∧ (kw.map (·.1)).Nodup)) ∧
    ∀ i, opr1 kw = .ok i → ∃ o, i = .opr1 o ∧ ∀ k ∈ ["cla", "cll", "cma", "cml", "rar", "ral", "twice", "iac"],
      (∀ b, (k, b) ∈ kw → field1 o k = b) ∧ ((∀ b, (k, b) ∉ kw) → field1 o k = false) := by
  constructor
  · rw [← accepts_iff]
    unfold opr1
    split <;> rename_i h <;> simp [h]
  · intro i hi
    unfold opr1 at hi
    split at hi
    · rename_i h
      cases hi
      have hn : (kw.map (·.1)).Nodup := by
        simp only [accepts, Bool.and_eq_true, decide_eq_true_eq] at h
        exact h.2
      refine ⟨_, rfl, fun k hk => ?_⟩
      have : field1 (OPR1.mk (flag kw "cla") (flag kw "cll") (flag kw "cma") (flag kw "cml") (flag kw "rar") (flag kw "ral") (flag kw "twice") (flag kw "iac")) k = flag kw k := by
        simp only [List.mem_cons, List.not_mem_nil, or_false] at hk
        rcases hk with rfl | rfl | rfl | rfl | rfl | rfl | rfl | rfl <;> rfl
      rw [this]
      exact ⟨fun b hb => flag_of_mem hn hb, flag_of_not_mem⟩
    · cases hi

/-- C74: the builders with keywords are `opr1` with their own flags besides, so a flag given again is refused. -/
theorem C74_keywords_again (b : Bool) (kw : Kw) :
    cla (("cla", b) :: kw) = .error .typeError ∧ cma (("cma", b) :: kw) = .error .typeError ∧ cll (("cll", b) :: kw) = .error .typeError ∧
    cml (("cml", b) :: kw) = .error .typeError ∧ iac (("iac", b) :: kw) = .error .typeError ∧ rar (("rar", b) :: kw) = .error .typeError ∧
    ral (("ral", b) :: kw) = .error .typeError ∧ rtr (("twice", b) :: kw) = .error .typeError ∧ rtl (("twice", b) :: kw) = .error .typeError ∧
    cia (("iac", b) :: kw) = .error .typeError := by
  have one : ∀ (n : String), opr1 ((n, true) :: (n, b) :: kw) = .error .typeError :=
    fun n => (C74_keywords1 _).1.mpr (fun h => by simp at h)
  have two : ∀ (m n : String), opr1 ((m, true) :: (n, true) :: (n, b) :: kw) = .error .typeError :=
    fun m n => (C74_keywords1 _).1.mpr (fun h => by simp at h)
  exact ⟨one _, one _, one _, one _, one _, one _, one _, two _ _, two _ _, two _ _⟩

/-- C74: `opr2` refuses in the same way; otherwise the instruction tests the accumulator's sign, zero and the link if either name of the column
is given, and is of the right column (`skip`) if a name of it is. -/
theorem C74_keywords2 (kw : Kw) :
    (opr2 kw = .error .typeError ↔
      ¬ ((∀ p ∈ kw, p.1 ∈ ["cla", "sma", "sza", "snl", "spa", "sna", "szl", "skip", "osr", "hlt"]) ∧ (kw.map (·.1)).Nodup)) ∧
    ∀ i, opr2 kw = .ok i → ∃ o, i = .opr2 o ∧
      (o.cla = true ↔ ("cla", true) ∈ kw) ∧ (o.osr = true ↔ ("osr", true) ∈ kw) ∧ (o.hlt = true ↔ ("hlt", true) ∈ kw) ∧ o.nop = false ∧
      (o.sma = true ↔ ("sma", true) ∈ kw ∨ ("spa", true) ∈ kw) ∧ (o.sza = true ↔ ("sza", true) ∈ kw ∨ ("sna", true) ∈ kw) ∧
      (o.snl = true ↔ ("snl", true) ∈ kw ∨ ("szl", true) ∈ kw) ∧
      (o.skip = true ↔ ("skip", true) ∈ kw ∨ ("spa", true) ∈ kw ∨ ("sna", true) ∈ kw ∨ ("szl", true) ∈ kw) := by
  constructor
  · rw [← accepts_iff]
    unfold opr2
    split <;> rename_i h <;> simp [h]
  · intro i hi
    unfold opr2 at hi
    split at hi
    · rename_i h
      cases hi
      have hn := ((accepts_iff _ _).mp h).2
      have key : ∀ k, flag kw k = true ↔ (k, true) ∈ kw := by
        intro k
        constructor
        · intro h1
          by_cases h2 : ∀ b, (k, b) ∉ kw
          · rw [flag_of_not_mem h2] at h1; cases h1
          · obtain ⟨b, h3⟩ := Classical.not_forall.mp h2
            have h3 := Classical.not_not.mp h3
            rw [flag_of_mem hn h3] at h1
            rw [h1] at h3
            exact h3
        · exact flag_of_mem hn
      refine ⟨_, rfl, key _, key _, key _, rfl, ?_, ?_, ?_, ?_⟩
      · simp only [Bool.or_eq_true, key]
      · simp only [Bool.or_eq_true, key]
      · simp only [Bool.or_eq_true, key]
      · simp only [← key]
        cases flag kw "spa" <;> cases flag kw "sna" <;> cases flag kw "szl" <;> cases flag kw "skip" <;> simp
    · cases hi

/-- A case: `cla(iac=1)` sets exactly these flags. -/
example : cla [("iac", true)] = .ok (.opr1 { cla := true, iac := true }) := rfl

/-- A case of the hypotheses: `rtl()` at the start of memory. -/
example : ∃ i, rtl [] = .ok i ∧ Before (Pdp8.init [i]) i 12 0 := ⟨_, rfl, rfl, rfl, by decide +kernel⟩

/-- A case of an indirect reference: location 1 holds 2. -/
example : Refers ((Pdp8.init [tad 1 true false]).pokeMem 1 2) 1 true 2 ∧ Refers (Pdp8.init [tad 1 false true]) 1 false 1 :=
  ⟨by show _ = _; decide +kernel, rfl⟩

/-- A case of the hypotheses of `C74_isz`. -/
example : Before ((Pdp8.init [isz 1 false false]).pokeMem 1 4095) (isz 1 false false) 12 0 ∧
    ((Pdp8.init [isz 1 false false]).pokeMem 1 4095).mem[1]? = some (.bv 12 4095) := ⟨⟨rfl, rfl, by decide +kernel⟩, by decide +kernel⟩

/-- A case of the link: `snl()` with link 1. -/
example : ∃ i, snl [] = .ok i ∧ Before { Pdp8.init [i] with lnk := true } i 12 0 := ⟨_, rfl, rfl, rfl, by decide +kernel⟩

end Peak.Pdp8.Asm
