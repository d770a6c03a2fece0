import Verif.Props.Pdp8
import Verif.Props.Pico
/-!
# C58: programs, and what the simulator gets wrong
-/

namespace Peak.Pdp8

open Spec

attribute [local irreducible] memInit

/-! ## The initial state -/

/-- The machine with a program from location 0 on and zeros elsewhere. -/
def machine (prog : List Inst) : SSt :=
  { mem := fun a => match prog[a]? with | some i => .code i | none => .data 0, pc := 0, acc := 0, lnk := 0, running := true }

theorem init_rel (prog : List Inst) : Rel (init prog) (machine prog) := by
  refine ⟨Pico.memInit_length _ _ _, ?_, ⟨rfl, (by decide : 0 < 4096), by decide⟩, rfl, rfl, rfl⟩
  intro a h
  have hl : a < 4096 := by have := Pico.memInit_length 4096 (prog.map PVal.inst) (.int 0); simp only [init] at h; omega
  have h1 : (init prog).mem[a]? = some ((prog.map PVal.inst)[a]?.getD (.int 0)) := by
    show (memInit 4096 _ _)[a]? = _
    rw [Pico.memInit_get, if_pos hl]
  rw [List.getElem?_eq_getElem h] at h1
  rw [Option.some.inj h1]
  show CellRel _ (match prog[a]? with | some i => .code i | none => .data 0)
  rw [List.getElem?_map]
  cases prog[a]? with
  | none => exact ⟨rfl, by decide⟩
  | some i => exact rfl

theorem poke_rel (s : St) (t : SSt) (hr : Rel s t) (a v : Nat) :
    Rel (s.pokeMem a v) { t with mem := upd t.mem a (.data (v % 4096)) } :=
  ⟨by simpa [St.pokeMem] using hr.len, store_mem s t hr a _ _ ⟨rfl, Nat.mod_lt _ (by decide), Nat.le_refl _⟩, hr.pc, hr.acc, hr.lnk, hr.running⟩

theorem pokeAcc_rel (s : St) (t : SSt) (hr : Rel s t) (v : Nat) : Rel (s.pokeAcc v) { t with acc := v % 4096 } :=
  ⟨hr.len, hr.mem, hr.pc, by simp [St.pokeAcc], hr.lnk, hr.running⟩

/-! ## Straight-line programs on page zero -/

/-- A direct reference to page zero: `asm.tad(addr)` etc. (asm.py:4-26) -/
def at_ (a : Nat) : MRI := ⟨false, false, BitVec.ofNat 7 a⟩

theorem addr_at (s : St) (pz : Bool) (a n : Nat) (ha : a < 128) (hn : n < 128) : s.addr pz (at_ a) (.bv 12 (n + 1)) = .ok (.bv 17 a) := by
  have hm : (BitVec.ofNat 7 a).toNat = a := by rw [BitVec.toNat_ofNat]; exact Nat.mod_eq_of_lt ha
  have h1 : (n + 1 + (2 ^ 12 - 1)) % 2 ^ 12 / 2 ^ 7 = 0 := by omega
  unfold St.addr page at_
  cases pz <;> simp only [Bool.not_false, Bool.and_true, Bool.and_false, if_true, if_false, Bool.false_eq_true, bind, Except.bind, h1, hm] <;> simp

/-- A state at location `n`, running. -/
structure At (s : St) (n : Nat) : Prop where
  pc : s.pc = .bv 12 n
  lt : n < 128
  run : s.running = true

theorem step_at (pz : Bool) (s : St) (n : Nat) (h : At s n) (i : Inst) (hi : s.mem[n]? = some (.inst i)) (r : St × PVal)
    (hx : s.exec pz i (.bv 12 (n + 1)) = .ok r) : s.step pz = .ok { r.1 with pc := r.2 } := by
  have h1 : (n + 1) % 2 ^ 12 = n + 1 := Nat.mod_eq_of_lt (by have := h.lt; omega)
  unfold St.step
  rw [h.run]
  simp only [St.load, h.pc, toInt, plus1, hi, bind, Except.bind, Bool.not_true, Bool.false_eq_true, if_false, h1, hx]

/-- A call at an instruction, for any width of the program counter. -/
theorem step_gen (pz : Bool) (s : St) (w n : Nat) (hpc : s.pc = .bv w n) (hr : s.running = true) (i : Inst) (hi : s.mem[n]? = some (.inst i)) :
    s.step pz = (do let r ← s.exec pz i (.bv w ((n + 1) % 2 ^ w)); .ok { r.1 with pc := r.2 }) := by
  unfold St.step
  rw [hr]
  simp only [St.load, hpc, toInt, plus1, hi, bind, Except.bind, Bool.not_true, Bool.false_eq_true, if_false]

theorem load_at (s : St) (w a : Nat) (v : PVal) (hv : s.mem[a]? = some v) : s.load (.bv w a) = .ok v := by
  unfold St.load
  simp only [toInt, bind, Except.bind, hv]

/-- The state, given by its components. -/
def mk (mem : List PVal) (n : Nat) (acc : Word) (lnk : Bool) : St := ⟨mem, .bv 12 n, acc, lnk, true⟩

theorem steps_succ (pz : Bool) (k : Nat) (s s' : St) (h : s.step pz = .ok s') : s.steps pz (k + 1) = s'.steps pz k := by
  simp only [St.steps, bind, Except.bind, h]

theorem run_tad (pz : Bool) (k : Nat) (mem : List PVal) (n : Nat) (acc : Word) (lnk : Bool) (a : Nat) (v : Nat)
    (hn : n < 128) (ha : a < 128) (hi : mem[n]? = some (.inst (.tad (at_ a)))) (hv : mem[a]? = some (.bv 12 v)) :
    (mk mem n acc lnk).steps pz (k + 1) =
      (mk mem (n + 1) (split13 (accLnk acc lnk + BitVec.ofNat 13 v)).1 (split13 (accLnk acc lnk + BitVec.ofNat 13 v)).2).steps pz k := by
  refine steps_succ pz k _ _ (step_at pz (mk mem n acc lnk) n ⟨rfl, hn, rfl⟩ _ hi ({ mk mem n acc lnk with acc := (split13 (accLnk acc lnk + BitVec.ofNat 13 v)).1, lnk := (split13 (accLnk acc lnk + BitVec.ofNat 13 v)).2 },
      .bv 12 (n + 1)) ?_)
  · simp only [St.exec, bind, Except.bind, addr_at _ pz a n ha hn, load_at (mk mem n acc lnk) 17 a _ hv, concat0]
    rfl

theorem run_and (pz : Bool) (k : Nat) (mem : List PVal) (n : Nat) (acc : Word) (lnk : Bool) (a : Nat) (v : Nat)
    (hn : n < 128) (ha : a < 128) (hi : mem[n]? = some (.inst (.and_ (at_ a)))) (hv : mem[a]? = some (.bv 12 v)) :
    (mk mem n acc lnk).steps pz (k + 1) = (mk mem (n + 1) (acc &&& BitVec.ofNat 12 v) lnk).steps pz k := by
  refine steps_succ pz k _ _ (step_at pz (mk mem n acc lnk) n ⟨rfl, hn, rfl⟩ _ hi ({ mk mem n acc lnk with acc := acc &&& BitVec.ofNat 12 v }, .bv 12 (n + 1)) ?_)
  · simp only [St.exec, bind, Except.bind, addr_at _ pz a n ha hn, load_at (mk mem n acc lnk) 17 a _ hv, andData]
    rfl

theorem run_dca (pz : Bool) (k : Nat) (mem : List PVal) (n : Nat) (acc : Word) (lnk : Bool) (a : Nat)
    (hn : n < 128) (ha : a < 128) (hl : mem.length = 4096) (hi : mem[n]? = some (.inst (.dca (at_ a)))) :
    (mk mem n acc lnk).steps pz (k + 1) = (mk (mem.set a (.bv 12 acc.toNat)) (n + 1) 0 lnk).steps pz k := by
  refine steps_succ pz k _ _ (step_at pz (mk mem n acc lnk) n ⟨rfl, hn, rfl⟩ _ hi ({ mk (mem.set a (.bv 12 acc.toNat)) n acc lnk with acc := 0 }, .bv 12 (n + 1)) ?_)
  · have hs : (mk mem n acc lnk).store (.bv 17 a) (.bv 12 acc.toNat) = .ok (mk (mem.set a (.bv 12 acc.toNat)) n acc lnk) := by
      unfold St.store
      simp only [toInt, bind, Except.bind]
      exact if_pos (show a < mem.length by omega)
    simp only [St.exec, bind, Except.bind, addr_at _ pz a n ha hn]
    rw [show (mk mem n acc lnk).acc = acc from rfl, hs]

theorem run_opr1 (pz : Bool) (k : Nat) (mem : List PVal) (n : Nat) (acc : Word) (lnk : Bool) (o : OPR1)
    (hn : n < 128) (hi : mem[n]? = some (.inst (.opr1 o))) :
    (mk mem n acc lnk).steps pz (k + 1) = (mk mem (n + 1) (group1 o acc lnk).1 (group1 o acc lnk).2).steps pz k := by
  refine steps_succ pz k _ _ (step_at pz (mk mem n acc lnk) n ⟨rfl, hn, rfl⟩ _ hi ({ mk mem n acc lnk with acc := (group1 o acc lnk).1, lnk := (group1 o acc lnk).2 }, .bv 12 (n + 1)) ?_)
  · rfl

theorem run_hlt (pz : Bool) (mem : List PVal) (n : Nat) (acc : Word) (lnk : Bool)
    (hn : n < 128) (hi : mem[n]? = some (.inst (.opr2 { hlt := true }))) :
    (mk mem n acc lnk).steps pz 1 = .ok ⟨mem, .bv 12 (n + 1), acc, lnk, false⟩ := by
  have := step_at pz (mk mem n acc lnk) n ⟨rfl, hn, rfl⟩ _ hi ({ mk mem n acc lnk with running := false }, .bv 12 (n + 1)) rfl
  rw [steps_succ pz 0 _ _ this]
  rfl

/-! The memory of a program with two arguments at `d` and `d + 1`. -/

def argMem (prog : List Inst) (d : Nat) (a b : Word) : List PVal :=
  ((init prog).mem.set d (.bv 12 a.toNat)).set (d + 1) (.bv 12 b.toNat)

theorem argMem_eq (prog : List Inst) (d : Nat) (a b : Word) :
    ((init prog).pokeMem d a.toNat).pokeMem (d + 1) b.toNat = mk (argMem prog d a b) 0 0 false := by
  have ha : a.toNat % 4096 = a.toNat := Nat.mod_eq_of_lt a.isLt
  have hb : b.toNat % 4096 = b.toNat := Nat.mod_eq_of_lt b.isLt
  unfold St.pokeMem mk argMem
  rw [ha, hb]
  rfl

theorem argMem_length (prog : List Inst) (d : Nat) (a b : Word) : (argMem prog d a b).length = 4096 := by
  unfold argMem
  rw [List.length_set, List.length_set]
  exact Pico.memInit_length _ _ _

theorem argMem_code (prog : List Inst) (d : Nat) (a b : Word) (n : Nat) (i : Inst) (hn : n < d) (hd : d < 128) (hi : prog[n]? = some i) :
    (argMem prog d a b)[n]? = some (.inst i) := by
  unfold argMem
  rw [List.getElem?_set_ne (by omega), List.getElem?_set_ne (by omega)]
  show (memInit 4096 _ _)[n]? = _
  rw [Pico.memInit_get, if_pos (by omega), List.getElem?_map, hi]
  rfl

theorem argMem_a (prog : List Inst) (d : Nat) (a b : Word) (hd : d < 128) : (argMem prog d a b)[d]? = some (.bv 12 a.toNat) := by
  unfold argMem
  rw [List.getElem?_set_ne (by omega), List.getElem?_set_self]
  have : (init prog).mem.length = 4096 := Pico.memInit_length _ _ _
  omega

theorem argMem_b (prog : List Inst) (d : Nat) (a b : Word) (hd : d < 128) : (argMem prog d a b)[d + 1]? = some (.bv 12 b.toNat) := by
  unfold argMem
  rw [List.getElem?_set_self]
  have : (init prog).mem.length = 4096 := Pico.memInit_length _ _ _
  rw [List.length_set]
  omega

theorem set_ne (mem : List PVal) (c n : Nat) (v : PVal) (h : c ≠ n) : (mem.set c v)[n]? = mem[n]? := List.getElem?_set_ne h

theorem tad_clear (l : Bool) (x : Word) : split13 (accLnk 0 l + BitVec.ofNat 13 x.toNat) = (x, l) := by
  have h := split_AL (accLnk 0 l + BitVec.ofNat 13 x.toNat) (both x.toNat (b2n l)) (by
    have hx := x.isLt
    rw [BitVec.toNat_add, accLnk_toNat, BitVec.toNat_ofNat]
    unfold both b2n
    cases l <;> simp <;> omega)
  rw [split_both] at h
  obtain ⟨h1, h2⟩ := h
  refine Prod.ext (BitVec.eq_of_toNat_eq h1) ?_
  revert h2
  cases (split13 (accLnk 0 l + BitVec.ofNat 13 x.toNat)).2 <;> cases l <;> simp [b2n]

theorem g1_cla (acc : Word) (l : Bool) : group1 { cla := true } acc l = (0, l) := rfl
theorem g1_cma (acc : Word) (l : Bool) : group1 { cma := true } acc l = (~~~acc, l) := rfl

theorem carry (x : Bool) (n : Nat) (h : b2n x = (split n).2) (hn : n < 8192) : x = decide (4096 ≤ n) := by
  revert h
  simp only [split]
  by_cases hab : 4096 ≤ n
  · have : n / 4096 % 2 = 1 := by omega
    rw [this]
    cases x <;> simp [b2n, hab]
  · have : n / 4096 % 2 = 0 := by omega
    rw [this]
    cases x <;> simp [b2n, hab]

/-- test_prog_add (test_pdp8.py:247-257), for all operands: the sum modulo 4096, and the carry in the link. -/
theorem C58_prog_add (pz : Bool) (a b : Word) :
    ∃ s, (((init [.opr1 { cla := true }, .tad (at_ 4), .tad (at_ 5), .opr2 { hlt := true }]).pokeMem 4 a.toNat).pokeMem 5 b.toNat).steps pz 4
      = .ok s ∧ s.running = false ∧ s.acc = a + b ∧ s.lnk = decide (4096 ≤ a.toNat + b.toNat) := by
  refine ⟨⟨argMem [.opr1 { cla := true }, .tad (at_ 4), .tad (at_ 5), .opr2 { hlt := true }] 4 a b, .bv 12 4, a + b, decide (4096 ≤ a.toNat + b.toNat), false⟩, ?_, rfl, rfl, rfl⟩
  rw [argMem_eq, run_opr1 pz 3 _ 0 _ _ _ (by decide) (argMem_code _ _ a b _ _ (by decide) (by decide) rfl), g1_cla,
    run_tad pz 2 _ 1 _ _ 4 a.toNat (by decide) (by decide) (argMem_code _ _ a b _ _ (by decide) (by decide) rfl) (argMem_a _ _ a b (by decide)),
    tad_clear,
    run_tad pz 1 _ 2 _ _ 5 b.toNat (by decide) (by decide) (argMem_code _ _ a b _ _ (by decide) (by decide) rfl) (argMem_b _ _ a b (by decide)),
    run_hlt pz _ 3 _ _ (by decide) (argMem_code _ _ a b _ _ (by decide) (by decide) rfl)]
  have h := split_AL (accLnk a false + BitVec.ofNat 13 b.toNat) (a.toNat + b.toNat) (by
    have ha := a.isLt
    have hb := b.isLt
    rw [BitVec.toNat_add, accLnk_toNat, BitVec.toNat_ofNat]
    unfold both b2n
    simp
    omega)
  obtain ⟨h1, h2⟩ := h
  have e1 : (split13 (accLnk a false + BitVec.ofNat 13 b.toNat)).1 = a + b :=
    BitVec.eq_of_toNat_eq (by rw [h1, BitVec.toNat_add]; rfl)
  have e2 : (split13 (accLnk a false + BitVec.ofNat 13 b.toNat)).2 = decide (4096 ≤ a.toNat + b.toNat) := by
    exact carry _ _ h2 (by have ha := a.isLt; have hb := b.isLt; omega)
  rw [e1, e2]

/-- run() returns on that program, in a state reached by executing HLT. -/
example (pz : Bool) (a b : Word) : ∃ s n,
    (((init [.opr1 { cla := true }, .tad (at_ 4), .tad (at_ 5), .opr2 { hlt := true }]).pokeMem 4 a.toNat).pokeMem 5 b.toNat).run pz 4
      = some (.ok s) ∧
    StopsAfter pz (((init [.opr1 { cla := true }, .tad (at_ 4), .tad (at_ 5), .opr2 { hlt := true }]).pokeMem 4 a.toNat).pokeMem 5 b.toNat) n s ∧
    s.acc = a + b := by
  obtain ⟨s, h, hr, ha, _⟩ := C58_prog_add pz a b
  have h1 := C58_run_returns pz hr 4 _ h
  obtain ⟨n, hn⟩ := (C58_run_stops pz _ s).1.1 ⟨4, h1⟩
  exact ⟨s, n, h1, hn, ha⟩

def progOr : List Inst :=
  [.opr1 { cla := true }, .tad (at_ 10), .opr1 { cma := true }, .dca (at_ 12), .tad (at_ 11), .opr1 { cma := true }, .and_ (at_ 12),
    .opr1 { cma := true }, .opr2 { hlt := true }]

/-- test_prog_or (test_pdp8.py:273-288), for all operands. -/
theorem C58_prog_or (pz : Bool) (a b : Word) :
    ∃ s, (((init progOr).pokeMem 10 a.toNat).pokeMem 11 b.toNat).steps pz 9 = .ok s ∧ s.running = false ∧ s.acc = a ||| b := by
  have hc := fun n i hi hn => argMem_code progOr 10 a b n i hn (by decide) hi
  have hl := argMem_length progOr 10 a b
  rw [argMem_eq, run_opr1 pz 8 _ 0 _ _ _ (by decide) (hc _ _ rfl (by decide)), g1_cla,
    run_tad pz 7 _ 1 _ _ 10 a.toNat (by decide) (by decide) (hc _ _ rfl (by decide)) (argMem_a _ _ a b (by decide)), tad_clear,
    run_opr1 pz 6 _ 2 _ _ _ (by decide) (hc _ _ rfl (by decide)), g1_cma,
    run_dca pz 5 _ 3 _ _ 12 (by decide) (by decide) hl (hc _ _ rfl (by decide)),
    run_tad pz 4 _ 4 _ _ 11 b.toNat (by decide) (by decide) ((set_ne _ _ _ _ (by decide)).trans (hc _ _ rfl (by decide)))
      ((set_ne _ _ _ _ (by decide)).trans (argMem_b _ _ a b (by decide))), tad_clear,
    run_opr1 pz 3 _ 5 _ _ _ (by decide) ((set_ne _ _ _ _ (by decide)).trans (hc _ _ rfl (by decide))), g1_cma,
    run_and pz 2 _ 6 _ _ 12 (~~~a).toNat (by decide) (by decide) ((set_ne _ _ _ _ (by decide)).trans (hc _ _ rfl (by decide)))
      (List.getElem?_set_self (by omega)),
    run_opr1 pz 1 _ 7 _ _ _ (by decide) ((set_ne _ _ _ _ (by decide)).trans (hc _ _ rfl (by decide))), g1_cma,
    run_hlt pz _ 8 _ _ (by decide) ((set_ne _ _ _ _ (by decide)).trans (hc _ _ rfl (by decide)))]
  refine ⟨_, rfl, rfl, ?_⟩
  show ~~~(~~~b &&& BitVec.ofNat 12 (~~~a).toNat) = a ||| b
  rw [BitVec.ofNat_toNat, BitVec.setWidth_eq, BitVec.not_and, BitVec.not_not, BitVec.not_not, BitVec.or_comm]

def progXor : List Inst :=
  [.opr1 { cla := true }, .tad (at_ 14), .opr1 { cma := true }, .dca (at_ 16), .tad (at_ 15), .opr1 { cma := true }, .and_ (at_ 16),
    .opr1 { cma := true }, .dca (at_ 16), .tad (at_ 14), .and_ (at_ 15), .opr1 { cma := true }, .and_ (at_ 16), .opr2 { hlt := true }]

/-- test_prog_xor1 (test_pdp8.py:309-329), for all operands. -/
theorem C58_prog_xor (pz : Bool) (a b : Word) :
    ∃ s, (((init progXor).pokeMem 14 a.toNat).pokeMem 15 b.toNat).steps pz 14 = .ok s ∧ s.running = false ∧ s.acc = a ^^^ b := by
  have hc := fun n i hi hn => argMem_code progXor 14 a b n i hn (by decide) hi
  have hl := argMem_length progXor 14 a b
  rw [argMem_eq, run_opr1 pz 13 _ 0 _ _ _ (by decide) (hc _ _ rfl (by decide)), g1_cla,
    run_tad pz 12 _ 1 _ _ 14 a.toNat (by decide) (by decide) (hc _ _ rfl (by decide)) (argMem_a _ _ a b (by decide)), tad_clear,
    run_opr1 pz 11 _ 2 _ _ _ (by decide) (hc _ _ rfl (by decide)), g1_cma,
    run_dca pz 10 _ 3 _ _ 16 (by decide) (by decide) hl (hc _ _ rfl (by decide)),
    run_tad pz 9 _ 4 _ _ 15 b.toNat (by decide) (by decide) ((set_ne _ _ _ _ (by decide)).trans (hc _ _ rfl (by decide)))
      ((set_ne _ _ _ _ (by decide)).trans (argMem_b _ _ a b (by decide))), tad_clear,
    run_opr1 pz 8 _ 5 _ _ _ (by decide) ((set_ne _ _ _ _ (by decide)).trans (hc _ _ rfl (by decide))), g1_cma,
    run_and pz 7 _ 6 _ _ 16 (~~~a).toNat (by decide) (by decide) ((set_ne _ _ _ _ (by decide)).trans (hc _ _ rfl (by decide)))
      (List.getElem?_set_self (by omega)),
    run_opr1 pz 6 _ 7 _ _ _ (by decide) ((set_ne _ _ _ _ (by decide)).trans (hc _ _ rfl (by decide))), g1_cma,
    run_dca pz 5 _ 8 _ _ 16 (by decide) (by decide) (by simpa using hl) ((set_ne _ _ _ _ (by decide)).trans (hc _ _ rfl (by decide))),
    List.set_set,
    run_tad pz 4 _ 9 _ _ 14 a.toNat (by decide) (by decide) ((set_ne _ _ _ _ (by decide)).trans (hc _ _ rfl (by decide)))
      ((set_ne _ _ _ _ (by decide)).trans (argMem_a _ _ a b (by decide))), tad_clear,
    run_and pz 3 _ 10 _ _ 15 b.toNat (by decide) (by decide) ((set_ne _ _ _ _ (by decide)).trans (hc _ _ rfl (by decide)))
      ((set_ne _ _ _ _ (by decide)).trans (argMem_b _ _ a b (by decide))),
    run_opr1 pz 2 _ 11 _ _ _ (by decide) ((set_ne _ _ _ _ (by decide)).trans (hc _ _ rfl (by decide))), g1_cma,
    run_and pz 1 _ 12 _ _ 16 _ (by decide) (by decide) ((set_ne _ _ _ _ (by decide)).trans (hc _ _ rfl (by decide)))
      (List.getElem?_set_self (by omega)),
    run_hlt pz _ 13 _ _ (by decide) ((set_ne _ _ _ _ (by decide)).trans (hc _ _ rfl (by decide)))]
  refine ⟨_, rfl, rfl, ?_⟩
  show ~~~(a &&& BitVec.ofNat 12 b.toNat) &&& BitVec.ofNat 12 (~~~(~~~b &&& BitVec.ofNat 12 (~~~a).toNat)).toNat = a ^^^ b
  simp only [BitVec.ofNat_toNat, BitVec.setWidth_eq]
  ext i hi
  simp only [BitVec.getElem_and, BitVec.getElem_not, BitVec.getElem_xor]
  cases a[i] <;> cases b[i] <;> rfl

def progCmp : List Inst :=
  [.opr1 { cla := true, cll := true }, .tad (at_ 14), .opr1 { cma := true, iac := true }, .tad (at_ 15), .opr2 { hlt := true }]

theorem cmp_run (pz : Bool) (a b : Word) :
    ∃ s, (((init progCmp).pokeMem 14 a.toNat).pokeMem 15 b.toNat).steps pz 5 = .ok s ∧ s.running = false ∧
      s.lnk = decide (4096 ≤ (4096 - a.toNat) % 4096 + b.toNat) := by
  have hc := fun n i hi hn => argMem_code progCmp 14 a b n i hn (by decide) hi
  have g1 : group1 { cla := true, cll := true } 0 false = (0, false) := rfl
  have g2 : group1 { cma := true, iac := true } a false = (~~~a + 1, false) := rfl
  rw [argMem_eq, run_opr1 pz 4 _ 0 _ _ _ (by decide) (hc _ _ rfl (by decide)), g1,
    run_tad pz 3 _ 1 _ _ 14 a.toNat (by decide) (by decide) (hc _ _ rfl (by decide)) (argMem_a _ _ a b (by decide)), tad_clear,
    run_opr1 pz 2 _ 2 _ _ _ (by decide) (hc _ _ rfl (by decide)), g2,
    run_tad pz 1 _ 3 _ _ 15 b.toNat (by decide) (by decide) (hc _ _ rfl (by decide)) (argMem_b _ _ a b (by decide)),
    run_hlt pz _ 4 _ _ (by decide) (hc _ _ rfl (by decide))]
  refine ⟨_, rfl, rfl, ?_⟩
  have ha := a.isLt
  have hb := b.isLt
  have hna : (~~~a + 1).toNat = (4096 - a.toNat) % 4096 := by
    rw [BitVec.toNat_add, BitVec.toNat_not]
    show (2 ^ 12 - 1 - a.toNat + 1) % 2 ^ 12 = _
    omega
  obtain ⟨_, h2⟩ := split_AL (accLnk (~~~a + 1) false + BitVec.ofNat 13 b.toNat) ((4096 - a.toNat) % 4096 + b.toNat) (by
    rw [BitVec.toNat_add, accLnk_toNat, BitVec.toNat_ofNat, hna]
    unfold both b2n
    simp
    omega)
  exact carry _ _ h2 (by omega)

/-- test_prog_cmp (test_pdp8.py:367-379): if the first operand is not 0, the link says whether the second one is at least as large. -/
theorem C58_prog_cmp_partial (pz : Bool) (a b : Word) (h : a ≠ 0) :
    ∃ s, (((init progCmp).pokeMem 14 a.toNat).pokeMem 15 b.toNat).steps pz 5 = .ok s ∧ s.running = false ∧ s.lnk = decide (a.toNat ≤ b.toNat) := by
  obtain ⟨s, h1, h2, h3⟩ := cmp_run pz a b
  refine ⟨s, h1, h2, h3.trans ?_⟩
  have ha := a.isLt
  have hb := b.isLt
  have h0 : a.toNat ≠ 0 := fun h' => h (BitVec.eq_of_toNat_eq h')
  have : (4096 - a.toNat) % 4096 = 4096 - a.toNat := Nat.mod_eq_of_lt (by omega)
  rw [this]
  exact decide_eq_decide.mpr (by omega)

/-- `iac` does not carry into the link: with the first operand 0 the comparison fails for every second operand. -/
theorem C58_violated_cmp (pz : Bool) (b : Word) :
    ∃ s, (((init progCmp).pokeMem 14 0).pokeMem 15 b.toNat).steps pz 5 = .ok s ∧ s.running = false ∧ s.lnk = false := by
  obtain ⟨s, h1, h2, h3⟩ := cmp_run pz 0 b
  refine ⟨s, h1, h2, h3.trans ?_⟩
  have hb := b.isLt
  exact decide_eq_false (by show ¬ (4096 ≤ (4096 - 0) % 4096 + b.toNat); omega)

/-- The machine sets the link. -/
example : (Spec.steps 5 { machine progCmp with mem := upd (upd (machine progCmp).mem 14 (.data 0)) 15 (.data 3) }).map (fun t => (t.lnk, t.running))
    = some (1, false) := by decide +kernel

/-! ## Where the simulator and the machine differ -/

/-- A state at the first of some instructions; `lnk` and `acc` as given. -/
def start (prog : List Inst) (acc : Word) (lnk : Bool) : St := mk (init prog).mem 0 acc lnk

theorem start_mem (prog : List Inst) (n : Nat) (i : Inst) (hn : n < 4096) (hi : prog[n]? = some i) : (init prog).mem[n]? = some (.inst i) := by
  show (memInit 4096 _ _)[n]? = _
  rw [Pico.memInit_get, if_pos hn, List.getElem?_map, hi]
  rfl

/-- `snl` skips if the link is zero, and `szl` if it is not (sim.py:101-102, 112-113): in every state, the opposite of the machine. -/
theorem C58_violated_snl (pz inv : Bool) (acc : Word) (l : Bool) :
    ∃ s, (start [.opr2 { snl := true, skip := inv }] acc l).step pz = .ok s ∧ s.pc = .bv 12 (if l = inv then 2 else 1) ∧
      ∃ t, Spec.step { machine [.opr2 { snl := true, skip := inv }] with acc := acc.toNat, lnk := b2n l } = some t ∧
        t.pc = (if l = inv then 1 else 2) := by
  have h := step_at pz (start [.opr2 { snl := true, skip := inv }] acc l) 0 ⟨rfl, by decide, rfl⟩ (.opr2 { snl := true, skip := inv })
    (start_mem _ 0 _ (by decide) rfl) (start [.opr2 { snl := true, skip := inv }] acc l, .bv 12 (if l = inv then 2 else 1))
    (by cases l <;> cases inv <;> rfl)
  refine ⟨_, h, rfl, ?_⟩
  cases l <;> cases inv <;> exact ⟨_, rfl, rfl⟩

/-- A cell that no instruction wrote cannot be added: it holds the int 0 (memory.py:8), which has no `concat`. -/
theorem C58_violated_unwritten (pz : Bool) : (init [.tad (at_ 5)]).step pz = .error .attributeError ∧
    ∃ t, Spec.step (machine [.tad (at_ 5)]) = some t ∧ t.acc = 0 ∧ t.pc = 1 := by
  refine ⟨?_, _, rfl, rfl, rfl⟩
  have hm : (init [.tad (at_ 5)]).mem[0]? = some (.inst (.tad (at_ 5))) := start_mem _ 0 _ (by decide) rfl
  have hv : (init [.tad (at_ 5)]).mem[5]? = some (.int 0) := by
    show (memInit 4096 _ _)[5]? = _
    rw [Pico.memInit_get, if_pos (by decide)]
    rfl
  have ha := addr_at (init [.tad (at_ 5)]) pz 5 0 (by decide) (by decide)
  have hx : (init [.tad (at_ 5)]).exec pz (.tad (at_ 5)) (.bv 12 1) = .error .attributeError := by
    simp only [St.exec, bind, Except.bind, ha, load_at _ 17 5 _ hv, concat0]
  rw [step_gen pz _ 12 0 rfl rfl _ hm]
  simp only [bind, Except.bind, hx, Nat.zero_add, show 1 % 2 ^ 12 = 1 from rfl]

/-- A reference to the current page (and, if `MP.PAGE_ZERO == ZERO` is false, also one to page zero) is outside the memory when the instruction
is on another page: `Word(addr)` has all twelve bits already when the page is put above it (sim.py:131). -/
theorem C58_violated_page (pz : Bool) (s : St) (hl : s.mem.length = 4096) (n : Nat) (h1 : 128 ≤ n) (h2 : n < 4096) (hpc : s.pc = .bv 12 n)
    (hr : s.running = true) (m : MRI) (hm : m.currentPage = true) (i : Inst) (hi : s.mem[n]? = some (.inst i))
    (hmem : i = .and_ m ∨ i = .tad m ∨ i = .isz m ∨ i = .dca m ∨ i = .jms m) : s.step pz = .error .indexError := by
  rw [step_gen pz s 12 n hpc hr i hi]
  have hpage : page pz m (.bv 12 ((n + 1) % 2 ^ 12)) = .ok (5, n / 2 ^ 7) := by
    have : ((n + 1) % 2 ^ 12 + (2 ^ 12 - 1)) % 2 ^ 12 = n := by omega
    simp only [page, hm, Bool.not_true, Bool.false_and, Bool.false_eq_true, if_false, this]
  have hge : 4096 ≤ m.addr.toNat + n / 2 ^ 7 * 2 ^ 12 := by omega
  have hload : s.load (.bv 17 (m.addr.toNat + n / 2 ^ 7 * 2 ^ 12)) = .error .indexError := by
    simp only [St.load, toInt, bind, Except.bind]
    rw [List.getElem?_eq_none (by omega)]
  have hstore : ∀ v, s.store (.bv 17 (m.addr.toNat + n / 2 ^ 7 * 2 ^ 12)) v = .error .indexError := by
    intro v
    simp only [St.store, toInt, bind, Except.bind]
    rw [if_neg (by omega)]
  have haddr : s.addr pz m (.bv 12 ((n + 1) % 2 ^ 12)) =
      (if m.indirect then .error .indexError else .ok (.bv 17 (m.addr.toNat + n / 2 ^ 7 * 2 ^ 12))) := by
    simp only [St.addr, hpage, bind, Except.bind, hload]
  cases hind : m.indirect <;> rw [hind] at haddr <;> simp only [if_true, if_false, Bool.false_eq_true] at haddr <;>
    rcases hmem with rfl | rfl | rfl | rfl | rfl <;> simp only [St.exec, bind, Except.bind, haddr, hload, hstore]

/-- Such an instruction: on page one. -/
example : ∃ s : St, s.mem.length = 4096 ∧ s.pc = .bv 12 128 ∧ s.running = true ∧ s.mem[128]? = some (.inst (.tad ⟨false, true, 5⟩)) := by
  refine ⟨{ init (List.replicate 129 (.tad ⟨false, true, 5⟩)) with pc := .bv 12 128 }, Pico.memInit_length _ _ _, rfl, rfl, ?_⟩
  exact start_mem _ 128 _ (by decide) (by rw [List.getElem?_replicate]; rfl)

/-- A jump on the current page, from another page than zero, leaves the memory: the next call raises. -/
theorem C58_violated_jmp (pz : Bool) (s : St) (hl : s.mem.length = 4096) (n : Nat) (h1 : 128 ≤ n) (h2 : n < 4096) (hpc : s.pc = .bv 12 n)
    (hr : s.running = true) (a : BitVec 7) (hi : s.mem[n]? = some (.inst (.jmp ⟨false, true, a⟩))) :
    s.steps pz 1 = .ok { s with pc := .bv 17 (a.toNat + n / 128 * 4096) } ∧ s.steps pz 2 = .error .indexError := by
  have hpage : page pz ⟨false, true, a⟩ (.bv 12 ((n + 1) % 2 ^ 12)) = .ok (5, n / 2 ^ 7) := by
    have : ((n + 1) % 2 ^ 12 + (2 ^ 12 - 1)) % 2 ^ 12 = n := by omega
    simp only [page, Bool.not_true, Bool.false_and, Bool.false_eq_true, if_false, this]
  have hstep : s.step pz = .ok { s with pc := .bv 17 (a.toNat + n / 128 * 4096) } := by
    rw [step_gen pz s 12 n hpc hr _ hi]
    simp only [St.exec, St.addr, hpage, bind, Except.bind, Bool.false_eq_true, if_false]
  refine ⟨by rw [steps_succ pz 0 _ _ hstep]; rfl, ?_⟩
  rw [steps_succ pz 1 _ _ hstep]
  simp only [St.steps, St.step, St.load, toInt, bind, Except.bind, hr, Bool.not_true, Bool.false_eq_true, if_false]
  rw [List.getElem?_eq_none (by omega)]

/-! ### A counter that was never written does not wrap -/

/-- Count a cell up until it is zero. -/
def progCount : List Inst := [.isz (at_ 5), .jmp (at_ 0), .opr2 { hlt := true }]

def countMem (k : Nat) : List PVal := (init progCount).mem.set 5 (.int k)

theorem countMem_code (k n : Nat) (i : Inst) (hn : n < 5) (hi : progCount[n]? = some i) : (countMem k)[n]? = some (.inst i) := by
  unfold countMem
  rw [set_ne _ _ _ _ (by omega)]
  exact start_mem _ _ _ (by omega) hi

theorem addr_low (s : St) (pz : Bool) (a n w : Nat) (hw : 12 ≤ w) (ha : a < 128) (hn : n < 127) :
    ∃ w', 12 ≤ w' ∧ s.addr pz (at_ a) (.bv w ((n + 1) % 2 ^ w)) = .ok (.bv w' a) := by
  have hm : (BitVec.ofNat 7 a).toNat = a := by rw [BitVec.toNat_ofNat]; exact Nat.mod_eq_of_lt ha
  have hpw := pow_ge w hw
  have h0 : (n + 1) % 2 ^ w = n + 1 := Nat.mod_eq_of_lt (by omega)
  have h1 : (n + 1 + (2 ^ w - 1)) % 2 ^ w / 2 ^ 7 = 0 := by
    have : n + 1 + (2 ^ w - 1) = n + 2 ^ w := by omega
    rw [this, Nat.add_mod_right, Nat.mod_eq_of_lt (by omega)]
    omega
  rw [h0]
  unfold St.addr page at_
  cases pz
  · refine ⟨12 + (w - 7), by omega, ?_⟩
    simp only [Bool.not_false, Bool.and_false, if_false, Bool.false_eq_true, bind, Except.bind, h1, hm, Nat.zero_mul, Nat.add_zero]
  · refine ⟨17, by omega, ?_⟩
    simp only [Bool.not_false, Bool.and_true, if_true, if_false, Bool.false_eq_true, bind, Except.bind, hm, Nat.zero_mul, Nat.add_zero]

/-- The two states of the loop. -/
def inLoop (s : St) : Prop := ∃ k w n, 12 ≤ w ∧ (n = 0 ∨ n = 1) ∧ s = ⟨countMem k, .bv w n, 0, false, true⟩

theorem inLoop_step (pz : Bool) (s : St) (h : inLoop s) : ∃ s', s.step pz = .ok s' ∧ inLoop s' := by
  obtain ⟨k, w, n, hw, hn, rfl⟩ := h
  have hpw := pow_ge w hw
  have hlen : (countMem k).length = 4096 := by unfold countMem; rw [List.length_set]; exact Pico.memInit_length _ _ _
  rcases hn with rfl | rfl
  · rw [step_gen pz _ w 0 rfl rfl (.isz (at_ 5)) (countMem_code k 0 _ (by decide) rfl)]
    obtain ⟨w', hw', ha⟩ := addr_low ⟨countMem k, .bv w 0, 0, false, true⟩ pz 5 0 w hw (by decide) (by decide)
    have hld : (⟨countMem k, .bv w 0, 0, false, true⟩ : St).load (.bv w' 5) = .ok (.int k) :=
      load_at _ _ _ _ (List.getElem?_set_self (by have : (init progCount).mem.length = 4096 := Pico.memInit_length _ _ _; omega))
    have hst : (⟨countMem k, .bv w 0, 0, false, true⟩ : St).store (.bv w' 5) (.int (k + 1)) =
        .ok ⟨countMem (k + 1), .bv w 0, 0, false, true⟩ := by
      simp only [St.store, toInt, bind, Except.bind]
      rw [if_pos (by omega)]
      simp only [countMem, List.set_set]
    simp only [St.exec, bind, Except.bind, ha, hld, plus1, hst, toInt]
    rw [if_neg (by omega)]
    exact ⟨_, rfl, k + 1, w, 1, hw, .inr rfl, by rw [Nat.zero_add, Nat.mod_eq_of_lt (by omega)]⟩
  · rw [step_gen pz _ w 1 rfl rfl (.jmp (at_ 0)) (countMem_code k 1 _ (by decide) rfl)]
    obtain ⟨w', hw', ha⟩ := addr_low ⟨countMem k, .bv w 1, 0, false, true⟩ pz 0 1 w hw (by decide) (by decide)
    simp only [St.exec, bind, Except.bind, ha]
    exact ⟨_, rfl, k, w', 0, hw', .inl rfl, rfl⟩

theorem spec_add (m n : Nat) (t t' : SSt) (h : Spec.steps m t = some t') : Spec.steps (m + n) t = Spec.steps n t' := by
  induction m generalizing t with
  | zero => cases h; rw [Nat.zero_add]
  | succ m ih =>
    rw [Nat.succ_add]
    simp only [Spec.steps, bind, Option.bind] at h ⊢
    cases hs : Spec.step t with
    | none => rw [hs] at h; cases h
    | some t1 => rw [hs] at h; exact ih t1 h

/-- The states of the machine in the loop. -/
theorem machine_loop (k : Nat) (hk : k ≤ 4095) :
    Spec.steps (2 * k) (machine progCount) = some { machine progCount with mem := upd (machine progCount).mem 5 (.data k) } := by
  induction k with
  | zero =>
    show some (machine progCount) = _
    congr 1
    have : upd (machine progCount).mem 5 (.data 0) = (machine progCount).mem := by
      funext a
      unfold upd
      split
      · next h => subst h; rfl
      · rfl
    rw [this]
  | succ k ih =>
    rw [show 2 * (k + 1) = 2 * k + 2 from by omega, spec_add _ 2 _ _ (ih (by omega))]
    have h1 : (k + 1) % 4096 = k + 1 := Nat.mod_eq_of_lt (by omega)
    have hs : Spec.step { machine progCount with mem := upd (machine progCount).mem 5 (.data k) } =
        some ⟨upd (upd (machine progCount).mem 5 (.data k)) 5 (.data ((k + 1) % 4096)),
          (if (k + 1) % 4096 = 0 then 2 else 1) % 4096, 0, 0, true⟩ := rfl
    have hu : upd (upd (machine progCount).mem 5 (.data k)) 5 (.data (k + 1)) = upd (machine progCount).mem 5 (.data (k + 1)) := by
      funext a
      unfold upd
      split <;> rfl
    rw [h1, hu, if_neg (by omega)] at hs
    simp only [Spec.steps, bind, Option.bind, hs]
    rfl

/-- The machine halts after 8192 instructions; the simulator counts the int in the cell past 4095 and never stops. -/
theorem C58_violated_isz (pz : Bool) :
    (∀ n, ∃ s, (init progCount).steps pz n = .ok s ∧ s.running = true) ∧ ∃ t, Spec.steps 8192 (machine progCount) = some t ∧ t.running = false := by
  constructor
  · have h0 : inLoop (init progCount) := by
      refine ⟨0, 12, 0, Nat.le_refl _, .inl rfl, ?_⟩
      have : countMem 0 = (init progCount).mem := by
        unfold countMem
        apply List.ext_getElem?
        intro i
        by_cases hi : 5 = i
        · subst hi
          rw [List.getElem?_set_self (by have : (init progCount).mem.length = 4096 := Pico.memInit_length _ _ _; omega)]
          show _ = (memInit 4096 _ _)[5]?
          rw [Pico.memInit_get, if_pos (by decide)]
          rfl
        · exact set_ne _ _ _ _ hi
      rw [this]
      rfl
    intro n
    suffices h : ∀ s, inLoop s → ∃ s', s.steps pz n = .ok s' ∧ inLoop s' by
      obtain ⟨s, hs, k, w, n, _, _, rfl⟩ := h _ h0
      exact ⟨_, hs, rfl⟩
    induction n with
    | zero => exact fun s h => ⟨s, rfl, h⟩
    | succ n ih =>
      intro s h
      obtain ⟨s1, h1, h2⟩ := inLoop_step pz s h
      rw [steps_succ pz n s s1 h1]
      exact ih s1 h2
  · have h := machine_loop 4095 (by decide)
    rw [show 8192 = 2 * 4095 + 2 from rfl, spec_add _ 2 _ _ h]
    exact ⟨_, rfl, rfl⟩

/-- `twice` alone exchanges the halves of the accumulator (isa.py:47); the simulator does nothing. -/
theorem C58_violated_swap (acc : Word) (l : Bool) : group1 { twice := true } acc l = (acc, l) ∧
    Spec.group1 { twice := true } acc.toNat (b2n l) = some (Spec.swap acc.toNat, b2n l) := by
  refine ⟨rfl, ?_⟩
  show some (Spec.swap (split (both acc.toNat (b2n l))).1, (split (both acc.toNat (b2n l))).2) = _
  rw [split_both]

example : Spec.swap 1 = 64 := rfl

/-- An indirect reference through the locations 8 to 15 does not increment them. -/
theorem C58_violated_auto (pz : Bool) (x y : Word) :
    let prog : List Inst := [.tad ⟨true, false, 8⟩]
    (∃ s, ((((init prog).pokeMem 8 20).pokeMem 20 x.toNat).pokeMem 21 y.toNat).step pz = .ok s ∧ s.acc = x) ∧
    ∃ t, Spec.step { machine prog with
      mem := upd (upd (upd (machine prog).mem 8 (.data 20)) 20 (.data x.toNat)) 21 (.data y.toNat) } = some t ∧ t.acc = y.toNat := by
  intro prog
  constructor
  · have hx : x.toNat % 4096 = x.toNat := Nat.mod_eq_of_lt x.isLt
    have hlen : (init prog).mem.length = 4096 := Pico.memInit_length _ _ _
    have h0 : ((((init prog).pokeMem 8 20).pokeMem 20 x.toNat).pokeMem 21 y.toNat).mem[0]? = some (.inst (.tad ⟨true, false, 8⟩)) := by
      simp only [St.pokeMem]
      rw [set_ne _ _ _ _ (by decide), set_ne _ _ _ _ (by decide), set_ne _ _ _ _ (by decide)]
      exact start_mem _ 0 _ (by decide) rfl
    have h8 : ((((init prog).pokeMem 8 20).pokeMem 20 x.toNat).pokeMem 21 y.toNat).mem[8]? = some (.bv 12 20) := by
      simp only [St.pokeMem]
      rw [set_ne _ _ _ _ (by decide), set_ne _ _ _ _ (by decide), List.getElem?_set_self (by omega)]
    have h20 : ((((init prog).pokeMem 8 20).pokeMem 20 x.toNat).pokeMem 21 y.toNat).mem[20]? = some (.bv 12 x.toNat) := by
      simp only [St.pokeMem]
      rw [set_ne _ _ _ _ (by decide), List.getElem?_set_self (by rw [List.length_set]; omega), hx]
    have ha : ((((init prog).pokeMem 8 20).pokeMem 20 x.toNat).pokeMem 21 y.toNat).addr pz ⟨true, false, 8⟩ (.bv 12 1) = .ok (.bv 12 20) := by
      have := load_at _ 17 8 _ h8
      cases pz <;> exact this
    have hacc : ((((init prog).pokeMem 8 20).pokeMem 20 x.toNat).pokeMem 21 y.toNat).acc = 0 := rfl
    have hlnk : ((((init prog).pokeMem 8 20).pokeMem 20 x.toNat).pokeMem 21 y.toNat).lnk = false := rfl
    rw [step_gen pz _ 12 0 rfl rfl _ h0]
    simp only [St.exec, bind, Except.bind, Nat.zero_add, show 1 % 2 ^ 12 = 1 from rfl, ha, load_at _ 12 20 _ h20, concat0, if_true, hacc, hlnk, tad_clear]
    exact ⟨_, rfl, rfl⟩
  · refine ⟨_, rfl, ?_⟩
    have := y.isLt
    show (0 * 4096 + 0 + y.toNat) % 8192 % 4096 = y.toNat
    omega

/-! ## The hypotheses can be met -/

/-- A loop, run for any number of calls. -/
def progLoop : List Inst := [.opr1 { cma := true, ral := true }, .jmp (at_ 0)]

theorem loop_covered (pz : Bool) (s : St) (t : SSt) (hm : t.mem = (machine progLoop).mem) (hp : t.pc = 0 ∨ t.pc = 1) : CoveredAt pz s t := by
  intro _ i hi
  rw [hm] at hi
  have hlt : t.pc + 2 < 4096 := by omega
  rcases hp with h | h <;> rw [h] at hi <;> cases hi
  · exact ⟨.inl hlt, fun m hm => (by simp at hm), fun m hm => (by cases hm), fun m a t' hm => (by cases hm), fun m a t' d hm => (by cases hm),
      fun o ho => (by cases ho; intro h; cases h), fun o ho => (by cases ho; intro h; cases h), fun o ho => (by cases ho)⟩
  · exact ⟨.inl hlt, fun m hm => (by simp at hm; subst hm; intro h; cases h), fun m hm _ => .inl (by omega), fun m a t' hm => (by cases hm),
      fun m a t' d hm => (by cases hm), fun o ho => (by cases ho), fun o ho => (by cases ho), fun o ho => (by cases ho)⟩

theorem loop_next (t t' : SSt) (hm : t.mem = (machine progLoop).mem) (hp : t.pc = 0 ∨ t.pc = 1) (h : Spec.step t = some t') :
    t'.mem = (machine progLoop).mem ∧ (t'.pc = 0 ∨ t'.pc = 1) := by
  obtain ⟨mem, pc, acc, lnk, run⟩ := t
  simp only at hm hp
  subst hm
  cases run with
  | false => cases h; exact ⟨rfl, hp⟩
  | true =>
    rcases hp with rfl | rfl
    · cases h; exact ⟨rfl, .inr rfl⟩
    · cases h; exact ⟨rfl, .inl rfl⟩

theorem loop_run (pz : Bool) (n : Nat) (s : St) (t : SSt) (hm : t.mem = (machine progLoop).mem) (hp : t.pc = 0 ∨ t.pc = 1) : CoveredRun pz n s t := by
  induction n generalizing s t with
  | zero => trivial
  | succ n ih =>
    refine ⟨loop_covered pz s t hm hp, fun s' t' _ h => ?_⟩
    obtain ⟨h1, h2⟩ := loop_next t t' hm hp h
    exact ih s' t' h1 h2

example (pz : Bool) (n : Nat) : Rel (init progLoop) (machine progLoop) ∧ CoveredRun pz n (init progLoop) (machine progLoop) :=
  ⟨init_rel _, loop_run pz n _ _ rfl (.inl rfl)⟩

/-- The hypotheses of `C58_page_zero_partial`, for an addition. -/
example (pz : Bool) (x : Word) : ∃ s t t', Rel s t ∧ CoveredAt pz s t ∧ t.pc < 128 ∧ (∃ w v, s.pc = .bv w v) ∧
    (∀ m, (t.mem t.pc = .code (.and_ m) ∨ t.mem t.pc = .code (.tad m)) → ∀ a t', effective t m = some (a, t') → ∃ v, s.mem[a]? = some (.bv 12 v)) ∧
    Spec.step t = some t' ∧ t'.acc = x.toNat := by
  have hx : x.toNat % 4096 = x.toNat := Nat.mod_eq_of_lt x.isLt
  refine ⟨(init [.tad (at_ 5)]).pokeMem 5 x.toNat, _, _, poke_rel _ _ (init_rel [.tad (at_ 5)]) 5 x.toNat, ?_, (by decide : 0 < 128), ⟨_, _, rfl⟩, ?_, rfl, ?_⟩
  · intro _ i hi
    cases hi
    exact ⟨.inl (by decide : 2 < 4096), fun m hm => (by simp at hm; subst hm; intro h; cases h), fun m hm => (by cases hm), fun m a t' hm => (by cases hm),
      fun m a t' d hm => (by cases hm), fun o ho => (by cases ho), fun o ho => (by cases ho), fun o ho => (by cases ho)⟩
  · intro m hm a t' he
    rcases hm with hm | hm
    · cases hm
    · cases hm
      cases he
      exact ⟨_, List.getElem?_set_self (by have : (init [.tad (at_ 5)]).mem.length = 4096 := Pico.memInit_length _ _ _; omega)⟩
  · show (0 * 4096 + 0 + x.toNat % 4096) % 8192 % 4096 = x.toNat
    rw [hx]
    have := x.isLt
    omega

end Peak.Pdp8
