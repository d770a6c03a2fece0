import Verif.Lemmas.Multi
/-!
# C54: programs of several instructions found by `Multi`
-/

namespace Peak

variable {F T V : Type} [DecidableEq F] [DecidableEq T] [DecidableEq V]

namespace Mu

omit [DecidableEq T] [DecidableEq V] in
/-- An assignment that satisfies the equations of a program is a run of it. -/
theorem consistent (pb : MultiPb F T V) (c : F) {n : Nat} (prog : List (MBdg F × V))
    (hw : IsMulti pb.irIn pb.archOut pb.nonConst n (prog.map (·.1))) (a : MuAsg F V)
    (hc : ∀ (i : Nat) p, prog[i]? = some p → a.archIn i c = p.2)
    (heq : ∀ (i : Nat) p, prog[i]? = some p → ∀ e ∈ p.1, ∀ s, e.1 = some s → pb.translate a true s = pb.translate a true e.2) :
    ∀ (i : Nat) p, prog[i]? = some p → (execMulti pb.arch c a.ir a.archIn prog [])[i]? = some (pb.arch (a.archIn i)) := by
  obtain ⟨_, hs⟩ := exec_spec pb.arch c a.ir a.archIn prog hw
  intro i
  induction i using Nat.strongRecOn with
  | _ i ih =>
    intro p hp
    rw [hs i p hp]
    congr 2
    funext f
    unfold blockIn
    by_cases hf : f = c
    · rw [if_pos hf, hf, hc i p hp]
    · rw [if_neg hf]
      cases hfind : p.1.find? (fun e => e.2 == .archIn i f) with
      | none => rfl
      | some e =>
        obtain ⟨s, q⟩ := e
        cases s with
        | none => rfl
        | some s =>
          have hmem := List.mem_of_find?_eq_some hfind
          have hq : q = .archIn i f := by simpa using List.find?_some hfind
          have hwi := wires_of hw i p.1 (by rw [List.getElem?_map, hp]; rfl)
          obtain ⟨f', t, _, _, hsrc⟩ := hwi.src _ hmem
          have he := heq i p hp _ hmem s rfl
          simp only [hq] at he
          rcases hsrc s rfl with ⟨g, rfl, _⟩ | ⟨j, g, hj, rfl, _⟩
          · exact he
          · have hjl : j < prog.length := by
              have : i < prog.length := by
                rcases Nat.lt_or_ge i prog.length with h | h
                · exact h
                · rw [List.getElem?_eq_none h] at hp; cases hp
              omega
            have := ih j hj prog[j] (List.getElem?_eq_getElem hjl)
            simp only [this]
            exact he

/-- The equations hold. -/
def EqsHold (pb : MultiPb F T V) (a : MuAsg F V) (r : Bool) (b : MBdg F) : Prop :=
  ∀ e ∈ b, ∀ s, e.1 = some s → pb.translate a r s = pb.translate a r e.2

omit [DecidableEq T] in
theorem eqsHold_iff (pb : MultiPb F T V) (a : MuAsg F V) (r : Bool) (b : MBdg F) : (∀ x ∈ bindEqs pb a r b, x = true) ↔ EqsHold pb a r b := by
  unfold bindEqs EqsHold
  simp only [List.mem_map, forall_exists_index, and_imp, forall_apply_eq_imp_iff₂, beq_iff_eq]
  constructor
  · intro h e he s hs
    have := h e he
    rw [hs] at this
    exact this
  · intro h e he
    cases hs : e.1 with
    | none => rfl
    | some s => exact h e he s hs

/-- `free_repl` holds. -/
def Repl (pb : MultiPb F T V) (n : Nat) (a : MuAsg F V) : Prop := ∀ i, i < n - 1 → ∀ e ∈ pb.archOut, a.archOut i e.1 = pb.arch (a.archIn i) e.1

/-- Some alternative of an index variable is selected and its equations hold. -/
def Sel (pb : MultiPb F T V) (a : MuAsg F V) (r : Bool) (n var : Nat) (alts : List (List (MBdg F))) : Prop :=
  ∃ (i : Nat) (bs : List (MBdg F)), alts[i]? = some bs ∧ pb.enc.matchIndex n (BV.ofNat (pb.enc.varLen n) var) i = .ok true ∧ ∀ b ∈ bs, EqsHold pb a r b

omit [DecidableEq T] in
theorem bindOr_sel (pb : MultiPb F T V) (a : MuAsg F V) (r : Bool) (var : Nat) (alts : List (List (MBdg F))) (hn : alts ≠ []) :
    ∃ x, bindOr pb.enc alts.length var (alts.map (fun bs => bs.flatMap (bindEqs pb a r))) = .ok x ∧ (x = true ↔ Sel pb a r alts.length var alts) := by
  obtain ⟨x, h1, h2⟩ := bindOr_spec pb.enc var (alts.map (fun bs => bs.flatMap (bindEqs pb a r))) (by simp [hn])
  rw [List.length_map] at h1 h2
  refine ⟨x, h1, h2.trans ?_⟩
  unfold Sel
  constructor
  · rintro ⟨i, l, hl, hm, hb⟩
    rw [List.getElem?_map] at hl
    cases hi : alts[i]? with
    | none => rw [hi] at hl; cases hl
    | some bs =>
      rw [hi] at hl
      cases hl
      refine ⟨i, bs, hi, hm, ?_⟩
      intro b hbm
      rw [← eqsHold_iff]
      intro y hy
      exact hb y (List.mem_flatMap.mpr ⟨b, hbm, hy⟩)
  · rintro ⟨i, bs, hi, hm, hb⟩
    refine ⟨i, _, by rw [List.getElem?_map, hi]; rfl, hm, ?_⟩
    intro y hy
    obtain ⟨b, hbm, hy⟩ := List.mem_flatMap.mp hy
    exact (eqsHold_iff pb a r b).mpr (hb b hbm) y hy

omit [DecidableEq T] in
/-- What the formula says. -/
theorem formula_iff (pb : MultiPb F T V) (n : Nat) (bs : MuBdgs F) (a : MuAsg F V) (hv : bs.valid ≠ []) (ho : bs.outs ≠ [])
    (hr : pb.useReal = false → n ≠ 1 → n - 1 ≠ 0 ∧ pb.archOut ≠ []) :
    ∃ r, multiFormula pb n bs a = .ok r ∧
      (r = true ↔ (∀ x ∈ multiValidConds pb n bs a, x = true) ∧
        ((pb.useReal = true ∨ Repl pb n a) → Sel pb a pb.useReal bs.valid.length a.bindIn (bs.valid.map (pick bs.blocks)) →
          Sel pb a true bs.outs.length a.bindOut (bs.outs.map (fun o => [o])))) := by
  obtain ⟨x1, h1, h1'⟩ := bindOr_sel pb a pb.useReal a.bindIn (bs.valid.map (pick bs.blocks)) (by simp [hv])
  obtain ⟨x2, h2, h2'⟩ := bindOr_sel pb a true a.bindOut (bs.outs.map (fun o => [o])) (by simp [ho])
  rw [List.length_map, List.map_map] at h1 h2
  rw [List.length_map] at h1' h2'
  have e2 : (bs.outs.map ((fun bs : List (MBdg F) => bs.flatMap (bindEqs pb a true)) ∘ fun o => [o])) = bs.outs.map (bindEqs pb a true) := by
    apply List.map_congr_left
    intro o _
    simp
  rw [e2] at h2
  have hval : fAnd (multiValidConds pb n bs a) = .ok ((multiValidConds pb n bs a).all id) := by
    unfold fAnd
    rw [if_neg (by simp [multiValidConds])]
  have hall : (multiValidConds pb n bs a).all id = true ↔ ∀ x ∈ multiValidConds pb n bs a, x = true := by simp
  unfold multiFormula
  have h1x : bindOr pb.enc bs.valid.length a.bindIn (bs.valid.map (fun x => (pick bs.blocks x).flatMap (bindEqs pb a pb.useReal))) = .ok x1 := h1
  rw [h1x, h2, hval]
  simp only
  cases hu : pb.useReal with
  | true =>
    rw [if_pos rfl]
    refine ⟨_, rfl, ?_⟩
    rw [Bool.and_eq_true, hall, Bool.or_eq_true, h2', Bool.not_eq_true', ← hu]
    rw [← h1']
    cases x1 <;> simp [hu]
  | false =>
    rw [if_neg Bool.false_ne_true]
    have hrepl : ∃ r, freeRepl pb n a = .ok r ∧ (r = true ↔ Repl pb n a) := by
      unfold freeRepl
      by_cases hn1 : n = 1
      · rw [if_pos hn1]
        refine ⟨true, rfl, ⟨fun _ i hi => ?_, fun _ => rfl⟩⟩
        omega
      · rw [if_neg hn1]
        obtain ⟨hn2, hne⟩ := hr hu hn1
        unfold fAnd
        rw [if_neg]
        · refine ⟨_, rfl, ?_⟩
          simp only [List.all_eq_true, List.mem_flatMap, List.mem_map, id, List.mem_range, forall_exists_index, and_imp]
          unfold Repl
          constructor
          · intro h i hi e he
            have := h _ i hi e he rfl
            simpa using this
          · rintro h _ i hi e he rfl
            simpa using h i hi e he
        · intro hnil
          rw [List.flatMap_eq_nil_iff] at hnil
          have := hnil 0 (by rw [List.mem_range]; omega)
          rw [List.map_eq_nil_iff] at this
          exact hne this
    obtain ⟨r, hr1, hr2⟩ := hrepl
    rw [hr1]
    refine ⟨_, rfl, ?_⟩
    rw [Bool.and_eq_true, hall, Bool.or_eq_true, h2', Bool.not_eq_true', ← hu]
    rw [← h1', ← hr2]
    cases x1 <;> cases r <;> simp [hu]

omit [DecidableEq F] [DecidableEq T] [DecidableEq V] in
theorem match_unique (enc : IEnc) (n var i j : Nat) (hi : i < n) (hj : j < n)
    (h1 : enc.matchIndex n (BV.ofNat (enc.varLen n) var) i = .ok true) (h2 : enc.matchIndex n (BV.ofNat (enc.varLen n) var) j = .ok true) : i = j := by
  have a := ((C30_decode enc n (BV.ofNat (enc.varLen n) var) rfl i).1).mpr ⟨hi, h1⟩
  have b := ((C30_decode enc n (BV.ofNat (enc.varLen n) var) rfl j).1).mpr ⟨hj, h2⟩
  rw [a] at b
  exact Except.ok.inj b

/-- What a successful `multiBuild` established. -/
structure Built (pb : MultiPb F T V) (n : Nat) (bs : MuBdgs F) : Prop where
  noConst : pb.irIn.filter (fun e => pb.isConst e.2) = []
  one : ∃ c t, pb.constDict = [(c, t)]
  n1 : 1 ≤ n
  valid : multiValid pb.irIn pb.archOut pb.nonConst n = .ok (bs.blocks, bs.valid)
  ne : bs.valid ≠ []
  real : pb.useReal = false → n ≠ 1 → n - 1 ≠ 0 ∧ pb.archOut ≠ []
  outs : createBindings2 (pb.archOut.map (fun e => (MPath.archOut (n - 1) e.1, e.2))) (pb.irOut.map (fun e => (MPath.irOut e.1, e.2))) false = .ok bs.outs

omit [DecidableEq V] in
theorem valid_ne {irIn archOut archIn : List (F × T)} {n : Nat} {r} (h : multiValid irIn archOut archIn n = .ok r) : 1 ≤ n ∧ r.2 ≠ [] := by
  unfold multiValid at h
  split at h
  · cases h
  · split at h
    · cases h
    · next hn =>
      simp only at h
      split at h
      · cases h
      · next hl =>
        have := Except.ok.inj h
        subst this
        exact ⟨by omega, fun h' => hl (List.length_eq_zero_iff.mpr h')⟩

omit [DecidableEq V] in
theorem built_of {pb : MultiPb F T V} {n : Nat} {bs : MuBdgs F} (h : multiBuild pb n = .ok bs) : Built pb n bs := by
  unfold multiBuild at h
  split at h
  · cases h
  · next h1 =>
    split at h
    · cases h
    · next h2 =>
      split at h
      · cases h
      · split at h
        · cases h
        · next blocks valid h4 =>
          split at h
          · cases h
          · next h5 =>
            split at h
            · cases h
            · next outs h6 =>
              have hb := Except.ok.inj h
              subst hb
              obtain ⟨hn, hne⟩ := valid_ne h4
              refine ⟨?_, ?_, hn, h4, hne, ?_, h6⟩
              · exact List.length_eq_zero_iff.mp (Decidable.not_not.mp h1)
              · have hl : pb.constDict.length = 1 := Decidable.not_not.mp h2
                match hc : pb.constDict, hl with
                | [e], _ => exact ⟨e.1, e.2, rfl⟩
              · intro hu hn1
                refine ⟨by omega, ?_⟩
                intro hnil
                apply h5
                rw [hu, hnil]
                simp [hn1]

omit [DecidableEq T] [DecidableEq V] in
theorem const_mem {pb : MultiPb F T V} {c : F} {t : T} (hc : pb.constDict = [(c, t)]) : (c, t) ∈ pb.archIn ∧ pb.isConst t = true := by
  have : (c, t) ∈ pb.constDict := by rw [hc]; exact List.mem_singleton.mpr rfl
  obtain ⟨h1, h2⟩ := List.mem_filter.mp this
  exact ⟨h1, h2⟩

omit [DecidableEq T] [DecidableEq V] in
/-- A field is the constant one or one to be bound. -/
theorem split_field {pb : MultiPb F T V} {c : F} {t : T} (hc : pb.constDict = [(c, t)]) (e : F × T) (he : e ∈ pb.archIn) :
    e = (c, t) ∨ e ∈ pb.nonConst := by
  by_cases h : pb.isConst e.2 = true
  · have : e ∈ pb.constDict := List.mem_filter.mpr ⟨he, h⟩
    rw [hc] at this
    exact .inl (List.mem_singleton.mp this)
  · exact .inr (List.mem_filter.mpr ⟨he, by simpa using h⟩)

omit [DecidableEq F] [DecidableEq T] [DecidableEq V] in
theorem key_unique (l : List (F × T)) (hn : (l.map (·.1)).Nodup) {f : F} {t t' : T} (h : (f, t) ∈ l) (h' : (f, t') ∈ l) : t = t' := by
  have := List.inj_on_of_nodup_map hn h h' rfl
  exact (Prod.mk.inj this).2

omit [DecidableEq T] [DecidableEq V] in
theorem nonConst_ne {pb : MultiPb F T V} {c : F} {t : T} (hc : pb.constDict = [(c, t)]) (hn : (pb.archIn.map (·.1)).Nodup) (e : F × T) (he : e ∈ pb.nonConst) :
    e.1 ≠ c := by
  intro h
  obtain ⟨h1, h2⟩ := List.mem_filter.mp he
  obtain ⟨h3, h4⟩ := const_mem hc
  have : e.2 = t := key_unique pb.archIn hn (f := c) (by rw [← h]; exact h1) h3
  rw [this, h4] at h2
  cases h2

omit [DecidableEq F] [DecidableEq T] [DecidableEq V] in
theorem nonConst_nodup {pb : MultiPb F T V} (hn : (pb.archIn.map (·.1)).Nodup) : (pb.nonConst.map (·.1)).Nodup :=
  (List.Sublist.map _ List.filter_sublist).nodup hn

omit [DecidableEq T] [DecidableEq V] in
/-- Reading the free outputs is reading the real ones. -/
theorem translate_real (pb : MultiPb F T V) (a : MuAsg F V) {n i : Nat} (hi : i < n) (b : MBdg F) (hw : Wires pb.irIn pb.archOut pb.nonConst i b)
    (h : pb.useReal = true ∨ Repl pb n a) : EqsHold pb a pb.useReal b ↔ EqsHold pb a true b := by
  rcases h with h | h
  · rw [h]
  · cases hu : pb.useReal with
    | true => rfl
    | false =>
      have key : ∀ e ∈ b, ∀ s, e.1 = some s → pb.translate a false s = pb.translate a true s ∧ pb.translate a false e.2 = pb.translate a true e.2 := by
        intro e he s hs
        obtain ⟨f, t, _, h2, hsrc⟩ := hw.src e he
        refine ⟨?_, by rw [h2]; rfl⟩
        rcases hsrc s hs with ⟨g, rfl, _⟩ | ⟨j, g, hj, rfl, hg⟩
        · rfl
        · exact h j (by omega) _ hg
      constructor
      · intro he e hm s hs
        obtain ⟨k1, k2⟩ := key e hm s hs
        rw [← k1, ← k2]
        exact he e hm s hs
      · intro he e hm s hs
        obtain ⟨k1, k2⟩ := key e hm s hs
        rw [k1, k2]
        exact he e hm s hs

/-- The assignment in which the program `prog` runs on the inputs `x` with `u` in the unbound fields. -/
def runAsg (pb : MultiPb F T V) (a : MuAsg F V) (c : F) (prog : List (MBdg F × V)) (x : F → V) (u : Nat → F → V) : MuAsg F V :=
  let ins : Nat → F → V := fun i =>
    match prog[i]? with
    | some p => blockIn c x (u i) (execMulti pb.arch c x u prog []) i p.1 p.2
    | none => a.archIn i
  { bindIn := a.bindIn, bindOut := a.bindOut, ir := x, archIn := ins, archOut := fun i => pb.arch (ins i), irBB := a.irBB }

section
variable (pb : MultiPb F T V) (a : MuAsg F V) (c : F) (prog : List (MBdg F × V)) (x : F → V) (u : Nat → F → V)

omit [DecidableEq T] [DecidableEq V] in
theorem run_in (i : Nat) (p : MBdg F × V) (hp : prog[i]? = some p) :
    (runAsg pb a c prog x u).archIn i = blockIn c x (u i) (execMulti pb.arch c x u prog []) i p.1 p.2 := by
  simp only [runAsg, hp]

omit [DecidableEq T] [DecidableEq V] in
theorem run_out {n : Nat} (hw : IsMulti pb.irIn pb.archOut pb.nonConst n (prog.map (·.1))) (i : Nat) (p : MBdg F × V) (hp : prog[i]? = some p) :
    (execMulti pb.arch c x u prog [])[i]? = some (pb.arch ((runAsg pb a c prog x u).archIn i)) := by
  rw [run_in pb a c prog x u i p hp]
  exact (exec_spec pb.arch c x u prog hw).2 i p hp

omit [DecidableEq T] [DecidableEq V] in
/-- The value of a bound field. -/
theorem run_bound {n : Nat} (hw : IsMulti pb.irIn pb.archOut pb.nonConst n (prog.map (·.1))) {t : T} (hc : pb.constDict = [(c, t)])
    (hn : (pb.archIn.map (·.1)).Nodup) (i : Nat) (p : MBdg F × V) (hp : prog[i]? = some p) : EqsHold pb (runAsg pb a c prog x u) true p.1 := by
  intro e he s hs
  have hwi := wires_of hw i p.1 (by rw [List.getElem?_map, hp]; rfl)
  obtain ⟨f, t', hft, h2, hsrc⟩ := hwi.src e he
  have hfind := find_unique p.1 (targets_nodup hwi (nonConst_nodup hn)) e he
  rw [h2] at hfind
  have hfc : f ≠ c := nonConst_ne hc hn (f, t') hft
  have hR : pb.translate (runAsg pb a c prog x u) true e.2 = blockIn c x (u i) (execMulti pb.arch c x u prog []) i p.1 p.2 f := by
    rw [h2]
    show (runAsg pb a c prog x u).archIn i f = _
    rw [run_in pb a c prog x u i p hp]
  rw [hR]
  unfold blockIn
  rw [if_neg hfc, hfind]
  obtain ⟨es, et⟩ := e
  simp only at hs
  subst hs
  rcases hsrc s rfl with ⟨g, rfl, _⟩ | ⟨j, g, hj, rfl, _⟩
  · rfl
  · have hjl : j < prog.length := by
      have : i < prog.length := by
        rcases Nat.lt_or_ge i prog.length with h | h
        · exact h
        · rw [List.getElem?_eq_none h] at hp; cases hp
      omega
    simp only [run_out pb a c prog x u hw j prog[j] (List.getElem?_eq_getElem hjl)]
    rfl

omit [DecidableEq T] [DecidableEq V] in
theorem run_sorted (dom : T → V → Prop) {n : Nat} (hw : IsMulti pb.irIn pb.archOut pb.nonConst n (prog.map (·.1))) {t : T} (hc : pb.constDict = [(c, t)])
    (hn : (pb.archIn.map (·.1)).Nodup) (hv : ∀ p ∈ prog, dom t p.2) (ha : MuSorted pb dom a) (hx : ∀ e ∈ pb.irIn, dom e.2 (x e.1))
    (hu : ∀ i, ∀ e ∈ pb.nonConst, dom e.2 (u i e.1))
    (htyped : ∀ inp : F → V, (∀ e ∈ pb.archIn, dom e.2 (inp e.1)) → ∀ e ∈ pb.archOut, dom e.2 (pb.arch inp e.1)) :
    MuSorted pb dom (runAsg pb a c prog x u) := by
  have hin : ∀ i, ∀ e ∈ pb.archIn, dom e.2 ((runAsg pb a c prog x u).archIn i e.1) := by
    intro i
    induction i using Nat.strongRecOn with
    | _ i ih =>
      intro e he
      cases hp : prog[i]? with
      | none =>
        have : (runAsg pb a c prog x u).archIn i = a.archIn i := by simp only [runAsg, hp]
        rw [this]
        exact ha.archIn i e he
      | some p =>
        rw [run_in pb a c prog x u i p hp]
        have hwi := wires_of hw i p.1 (by rw [List.getElem?_map, hp]; rfl)
        rcases split_field hc e he with rfl | hnc
        · unfold blockIn
          rw [if_pos rfl]
          exact hv p (List.mem_of_getElem? hp)
        · have hfc := nonConst_ne hc hn e hnc
          unfold blockIn
          rw [if_neg hfc]
          cases hfind : p.1.find? (fun y => y.2 == .archIn i e.1) with
          | none => exact hu i e hnc
          | some y =>
            obtain ⟨s, q⟩ := y
            cases s with
            | none => exact hu i e hnc
            | some s =>
              have hmem := List.mem_of_find?_eq_some hfind
              have hq : q = .archIn i e.1 := by simpa using List.find?_some hfind
              obtain ⟨f, t', hft, h2, hsrc⟩ := hwi.src _ hmem
              have hf : f = e.1 := by
                simp only [hq] at h2
                exact (MPath.archIn.inj h2).2.symm
              have ht : t' = e.2 := key_unique pb.nonConst (nonConst_nodup hn) (f := e.1) (by rw [← hf]; exact hft) hnc
              subst ht
              rcases hsrc s rfl with ⟨g, rfl, hg⟩ | ⟨j, g, hj, rfl, hg⟩
              · exact hx _ hg
              · have hjl : j < prog.length := by
                  have : i < prog.length := by
                    rcases Nat.lt_or_ge i prog.length with h | h
                    · exact h
                    · rw [List.getElem?_eq_none h] at hp; cases hp
                  omega
                simp only [run_out pb a c prog x u hw j prog[j] (List.getElem?_eq_getElem hjl)]
                exact htyped _ (ih j hj) _ hg
  exact ⟨hx, hin, fun i e he => htyped _ (hin i) e he⟩

end

omit [DecidableEq T] in
theorem outs_ne {pb : MultiPb F T V} {n : Nat} {bs : MuBdgs F} {a : MuAsg F V} {r : Bool} (h : multiFormula pb n bs a = .ok r) : bs.outs ≠ [] := by
  intro hnil
  unfold multiFormula at h
  rw [hnil] at h
  have : bindOr pb.enc ([] : List (MBdg F)).length a.bindOut (([] : List (MBdg F)).map (bindEqs pb a true)) = .error .assertionError := rfl
  rw [this] at h
  split at h
  · next h2 _ => cases h2
  · cases h
  · cases h
  · cases h

omit [DecidableEq T] in
/-- The index selected by a valid variable. -/
theorem selected (enc : IEnc) (n var : Nat) (hn : 1 ≤ n) (hv : enc.isValid n (BV.ofNat (enc.varLen n) var) = true) :
    ∃ i, i < n ∧ enc.matchIndex n (BV.ofNat (enc.varLen n) var) (i : Nat) = .ok true ∧ enc.decode n (BV.ofNat (enc.varLen n) var).val = .ok i := by
  obtain ⟨i, hi, hm, _⟩ := (C30_valid_iff_unique enc n hn _ rfl).mp hv
  exact ⟨i, hi, hm, ((C30_decode enc n _ rfl i).1).mpr ⟨hi, hm⟩⟩

omit [DecidableEq T] [DecidableEq V] in
theorem exec_last (pb : MultiPb F T V) (c : F) (prog : List (MBdg F × V)) (x : F → V) (u : Nat → F → V) {n : Nat} (hn : 1 ≤ n)
    (hw : IsMulti pb.irIn pb.archOut pb.nonConst n (prog.map (·.1))) :
    prog.length = n ∧ (execMulti pb.arch c x u prog []).getLast? = (execMulti pb.arch c x u prog [])[n - 1]? := by
  have hl : prog.length = n := by have := hw.len; simpa using this
  refine ⟨hl, ?_⟩
  rw [List.getLast?_eq_getElem?, (exec_spec pb.arch c x u prog hw).1, hl]

end Mu

open Mu

/-- C54, soundness: a program returned for an IR class without black boxes is correct.  Missing from the full claim: black boxes in the IR
(`C54_violated_black_box`). -/
theorem C54_sound_partial (pb : MultiPb F T V) (dom : T → V → Prop) (n : Nat) (solve : (MuAsg F V → Prop) → Option (MuAsg F V)) (a0 : MuAsg F V)
    (hir : (pb.irIn.map (·.1)).Nodup) (hai : (pb.archIn.map (·.1)).Nodup) (hao : (pb.archOut.map (·.1)).Nodup)
    (htyped : ∀ inp : F → V, (∀ e ∈ pb.archIn, dom e.2 (inp e.1)) → ∀ e ∈ pb.archOut, dom e.2 (pb.arch inp e.1))
    (hbb : ∀ β β' x, pb.ir β x = pb.ir β' x)
    (hsolve : ∀ φ a, solve φ = some a → φ a ∧ MuSorted pb dom a)
    (r : List (MBdg F × List V)) (h : multiSolve pb dom n solve a0 = .ok (some r)) :
    ∃ c t, pb.constDict = [(c, t)] ∧ ∃ prog, r = prog.map (fun p => (p.1, [p.2])) ∧ MultiCorrect pb dom n c t prog := by
  unfold multiSolve at h
  split at h
  · cases h
  next bs hbs =>
  split at h
  · cases h
  next r0 hform =>
  split at h
  · cases h
  next a ha =>
  split at h
  · cases h
  next r' hrr =>
  have hr' : r' = r := Option.some.inj (Except.ok.inj h)
  subst hr'
  obtain ⟨hsat, hsort⟩ := hsolve _ a ha
  have hB := built_of hbs
  have hout := outs_ne hform
  obtain ⟨c, t, hc⟩ := hB.one
  refine ⟨c, t, hc, ?_⟩
  -- the valid conditions
  obtain ⟨r1, hf1, hi1⟩ := formula_iff pb n bs a hB.ne hout hB.real
  have h1 := hsat a hsort ⟨rfl, rfl, fun _ _ _ => rfl, rfl⟩
  rw [hf1] at h1
  obtain ⟨hconds, _⟩ := hi1.mp (Except.ok.inj h1)
  have hv1 : pb.enc.isValid bs.valid.length (BV.ofNat (pb.enc.varLen bs.valid.length) a.bindIn) = true := hconds _ (by simp [multiValidConds])
  have hv2 : pb.enc.isValid bs.outs.length (BV.ofNat (pb.enc.varLen bs.outs.length) a.bindOut) = true := hconds _ (by simp [multiValidConds])
  have hv3 : ∀ i, i < n → pb.isValid (a.archIn i c) = true := by
    intro i hi
    apply hconds
    unfold multiValidConds
    refine List.mem_append_right _ (List.mem_flatMap.mpr ⟨i, List.mem_range.mpr hi, ?_⟩)
    rw [hc]
    exact List.mem_singleton.mpr rfl
  obtain ⟨bi, hbi, hmi, hdi⟩ := selected pb.enc _ _ (List.length_pos_iff.mpr hB.ne) hv1
  obtain ⟨bo, hbo, hmo, _⟩ := selected pb.enc _ _ (List.length_pos_iff.mpr hout) hv2
  -- the program
  unfold multiRR at hrr
  rw [hdi] at hrr
  simp only [List.getElem?_eq_getElem hbi] at hrr
  have hr := (Except.ok.inj hrr).symm
  have hpick : IsMulti pb.irIn pb.archOut pb.nonConst n (pick bs.blocks bs.valid[bi]) :=
    ((C29_multi pb.irIn pb.archOut pb.nonConst n hB.n1 hir hao).1 _ _ hB.valid).2.2 _ |>.mp (List.mem_map_of_mem (List.getElem_mem hbi))
  let prog : List (MBdg F × V) := (pick bs.blocks bs.valid[bi]).zip ((List.range n).map (fun i => a.archIn i c))
  have hfst : prog.map (·.1) = pick bs.blocks bs.valid[bi] := List.map_fst_zip (by rw [hpick.len]; simp)
  have hw : IsMulti pb.irIn pb.archOut pb.nonConst n (prog.map (·.1)) := by rw [hfst]; exact hpick
  have hl : prog.length = n := by have := hw.len; simpa using this
  have hsnd : ∀ (i : Nat) p, prog[i]? = some p → i < n ∧ p.2 = a.archIn i c := by
    intro i p hp
    have hin : i < n := by
      rcases Nat.lt_or_ge i prog.length with h | h
      · omega
      · rw [List.getElem?_eq_none h] at hp; cases hp
    have := (List.getElem?_zip_eq_some.mp hp).2
    rw [List.getElem?_map, List.getElem?_range hin] at this
    exact ⟨hin, (Option.some.inj this).symm⟩
  refine ⟨prog, ?_, hw, ?_, ?_⟩
  · rw [hr]
    simp only [hc, List.map_cons, List.map_nil]
    have : (List.range n).map (fun i => [a.archIn i c]) = ((List.range n).map (fun i => a.archIn i c)).map (fun v => [v]) := by
      rw [List.map_map]; rfl
    rw [this, List.zip_map_right]
    rfl
  · intro p hp
    obtain ⟨i, hi⟩ := List.mem_iff_getElem?.mp hp
    obtain ⟨hin, h2⟩ := hsnd i p hi
    rw [h2]
    exact ⟨hv3 i hin, hsort.archIn i _ (const_mem hc).1⟩
  -- it computes the function
  · have hob : bs.outs[bo] ∈ bs.outs := List.getElem_mem hbo
    refine ⟨bs.outs[bo], ?_, ?_⟩
    · have hC := C29_block (pb.archOut.map (fun e => (MPath.archOut (n - 1) e.1, e.2))) (pb.irOut.map (fun e => (MPath.irOut e.1, e.2))) false
      by_cases hbad : (false = false ∧ ∃ o t, (o, t) ∈ pb.irOut.map (fun e => (MPath.irOut (F := F) e.1, e.2)) ∧
          ∀ i, (i, t) ∉ pb.archOut.map (fun e => (MPath.archOut (n - 1) e.1, e.2)))
      · have := hC.1 hbad
        rw [hB.outs] at this
        cases this
      · obtain ⟨bs', h1, h2, _⟩ := hC.2 hbad
        rw [hB.outs] at h1
        have := Except.ok.inj h1
        subst this
        exact (h2 _).mp hob
    · intro β x u hx hu
      have hsrt := run_sorted pb a c prog x u dom hw hc hai (fun p hp => by
        obtain ⟨i, hi⟩ := List.mem_iff_getElem?.mp hp
        rw [(hsnd i p hi).2]
        exact hsort.archIn i _ (const_mem hc).1) hsort hx hu htyped
      have hsame : MuSame pb a (runAsg pb a c prog x u) := by
        refine ⟨rfl, rfl, ?_, rfl⟩
        intro i e he
        rw [hc] at he
        have := List.mem_singleton.mp he
        subst this
        cases hp : prog[i]? with
        | none => simp only [runAsg, hp]
        | some p =>
          rw [run_in pb a c prog x u i p hp]
          unfold blockIn
          rw [if_pos rfl]
          exact (hsnd i p hp).2
      have h2 := hsat _ hsrt hsame
      obtain ⟨r2, hf2, hi2⟩ := formula_iff pb n bs (runAsg pb a c prog x u) hB.ne hout hB.real
      rw [hf2] at h2
      obtain ⟨_, himp⟩ := hi2.mp (Except.ok.inj h2)
      have hrepl : pb.useReal = true ∨ Repl pb n (runAsg pb a c prog x u) := .inr (fun i _ e _ => rfl)
      have hsel : Sel pb (runAsg pb a c prog x u) pb.useReal bs.valid.length (runAsg pb a c prog x u).bindIn (bs.valid.map (pick bs.blocks)) := by
        refine ⟨bi, pick bs.blocks bs.valid[bi], by rw [List.getElem?_map, List.getElem?_eq_getElem hbi]; rfl, hmi, ?_⟩
        intro b hb
        rw [← hfst] at hb
        obtain ⟨p, hp, rfl⟩ := List.mem_map.mp hb
        obtain ⟨i, hi⟩ := List.mem_iff_getElem?.mp hp
        have hwi := wires_of hw i p.1 (by rw [List.getElem?_map, hi]; rfl)
        rw [translate_real pb _ (hsnd i p hi).1 p.1 hwi hrepl]
        exact run_bound pb a c prog x u hw hc hai i p hi
      obtain ⟨j, l, hj, hmj, hall⟩ := himp hrepl hsel
      rw [List.getElem?_map] at hj
      have hjl : j < bs.outs.length := by
        rcases Nat.lt_or_ge j bs.outs.length with h | h
        · exact h
        · rw [List.getElem?_eq_none h] at hj; cases hj
      have hjb : j = bo := match_unique pb.enc _ _ j bo hjl hbo hmj hmo
      subst hjb
      rw [List.getElem?_eq_getElem hjl] at hj
      have hl' : [bs.outs[j]] = l := Option.some.inj hj
      subst hl'
      have heq := hall _ (List.mem_singleton.mpr rfl)
      obtain ⟨_, hlast⟩ := exec_last pb c prog x u hB.n1 hw
      have hn1 : n - 1 < prog.length := by have := hB.n1; omega
      refine ⟨_, by rw [hlast, run_out pb a c prog x u hw (n - 1) prog[n - 1] (List.getElem?_eq_getElem hn1)], ?_⟩
      intro hh g hmem
      rw [hl] at hmem
      have := heq _ hmem _ rfl
      rw [hbb β a.irBB x]
      exact this

/-- C54, completeness: if there is a correct program and the classes are accepted, one is found.  So `None` means that there is none. -/
theorem C54_complete_partial (pb : MultiPb F T V) (dom : T → V → Prop) (n : Nat) (solve : (MuAsg F V → Prop) → Option (MuAsg F V)) (a0 : MuAsg F V)
    (hn : 1 ≤ n) (hir : (pb.irIn.map (·.1)).Nodup) (hai : (pb.archIn.map (·.1)).Nodup) (hao : (pb.archOut.map (·.1)).Nodup)
    (hconst : ∀ e ∈ pb.irIn, pb.isConst e.2 = false) (harch : pb.archBB = false)
    (hreal : pb.useReal = false → n ≠ 1 → pb.archOut ≠ [])
    (ha0 : MuSorted pb dom a0)
    (hsolve : ∀ φ a, solve φ = some a → φ a ∧ MuSorted pb dom a)
    (hcomplete : ∀ φ, (∃ a, φ a ∧ MuSorted pb dom a) → solve φ ≠ none)
    (c : F) (t : T) (hc : pb.constDict = [(c, t)]) (prog : List (MBdg F × V)) (hcor : MultiCorrect pb dom n c t prog) :
    ∃ r, multiSolve pb dom n solve a0 = .ok (some r) := by
  have hw := hcor.wiring
  have hl : prog.length = n := by have := hw.len; simpa using this
  obtain ⟨ob, hob, hcomp⟩ := hcor.computes
  have hC29 := C29_multi pb.irIn pb.archOut pb.nonConst n hn hir hao
  obtain ⟨⟨blocks, valid⟩, hvalid⟩ := hC29.2.1.mpr ⟨_, hw⟩
  obtain ⟨_, _, hiff⟩ := hC29.1 _ _ hvalid
  have hC := C29_block (pb.archOut.map (fun e => (MPath.archOut (n - 1) e.1, e.2))) (pb.irOut.map (fun e => (MPath.irOut e.1, e.2))) false
  have hgood : ¬ (false = false ∧ ∃ o t, (o, t) ∈ pb.irOut.map (fun e => (MPath.irOut (F := F) e.1, e.2)) ∧
          ∀ i, (i, t) ∉ pb.archOut.map (fun e => (MPath.archOut (n - 1) e.1, e.2))) := by
    rintro ⟨_, o, t', ho, hno⟩
    obtain ⟨k, hk, hke⟩ := List.mem_iff_getElem.mp ho
    have hlen := hob.length_eq
    have := hob.get (i := k) (by omega) hk
    simp only [List.get_eq_getElem] at this
    rw [hke] at this
    rcases this.2 with ⟨_, h⟩ | ⟨i, _, h⟩
    · cases h
    · exact hno i h
  obtain ⟨outs, houts, houtiff, _⟩ := hC.2 hgood
  have hbuild : multiBuild pb n = .ok ⟨blocks, valid, outs⟩ := by
    unfold multiBuild
    rw [if_neg, if_neg, if_neg]
    · simp only [hvalid]
      rw [if_neg]
      · simp only [houts]
      · intro h
        simp only [Bool.and_eq_true, Bool.not_eq_true', decide_eq_true_eq, List.isEmpty_iff] at h
        exact hreal h.1.1 h.1.2 h.2
    · rw [harch]; simp
    · rw [hc]; simp
    · intro h
      apply h
      rw [List.length_eq_zero_iff, List.filter_eq_nil_iff]
      intro e he
      rw [hconst e he]
      exact Bool.false_ne_true
  have hB := built_of hbuild
  obtain ⟨bi, hbi, hbie⟩ := List.mem_iff_getElem.mp ((hiff _).mpr hw)
  have hbi' : bi < valid.length := by simpa using hbi
  obtain ⟨bo, hbo, hboe⟩ := List.mem_iff_getElem.mp ((houtiff ob).mpr hob)
  have hout : outs ≠ [] := by intro h; rw [h] at hbo; cases hbo
  obtain ⟨v1, hs1, hv1, hm1, _⟩ := C30_reachable pb.enc valid.length bi hbi'
  obtain ⟨v2, hs2, hv2, hm2, _⟩ := C30_reachable pb.enc outs.length bo hbo
  have hof : ∀ (v : BV) (w : Nat), v.size = w → BV.ofNat w v.val = v := by
    rintro ⟨s, x, hx⟩ w rfl
    simp only [BV.ofNat, Nat.mod_eq_of_lt hx]
  have hform : ∀ a, ∃ r, multiFormula pb n ⟨blocks, valid, outs⟩ a = .ok r := fun a =>
    let ⟨r, h, _⟩ := formula_iff pb n ⟨blocks, valid, outs⟩ a hB.ne hout hB.real
    ⟨r, h⟩
  let a : MuAsg F V := { a0 with
    bindIn := v1.val
    bindOut := v2.val
    archIn := fun i f => if f = c then ((prog[i]?).map (·.2)).getD (a0.archIn i c) else a0.archIn i f }
  have hac : ∀ (i : Nat) p, prog[i]? = some p → a.archIn i c = p.2 := by
    intro i p hp
    show (if c = c then ((prog[i]?).map (·.2)).getD (a0.archIn i c) else a0.archIn i c) = p.2
    rw [if_pos rfl, hp]
    rfl
  have hasort : MuSorted pb dom a := by
    refine ⟨ha0.ir, ?_, ha0.archOut⟩
    intro i e he
    show dom e.2 (if e.1 = c then ((prog[i]?).map (·.2)).getD (a0.archIn i c) else a0.archIn i e.1)
    by_cases hec : e.1 = c
    · rw [if_pos hec]
      have het : e.2 = t := key_unique pb.archIn hai (f := c) (by rw [← hec]; exact he) (const_mem hc).1
      rw [het]
      cases hp : prog[i]? with
      | none => exact ha0.archIn i (c, t) (const_mem hc).1
      | some p => exact (hcor.valid p (List.mem_of_getElem? hp)).2
    · rw [if_neg hec]
      exact ha0.archIn i e he
  have hsat : multiSat pb dom n ⟨blocks, valid, outs⟩ a := by
    intro a' hsort' hsame
    obtain ⟨r, hf, hi⟩ := formula_iff pb n ⟨blocks, valid, outs⟩ a' hB.ne hout hB.real
    rw [hf]
    congr 1
    rw [hi]
    have hb1 : BV.ofNat (pb.enc.varLen valid.length) a'.bindIn = v1 := by rw [hsame.bindIn]; exact hof v1 _ hs1
    have hb2 : BV.ofNat (pb.enc.varLen outs.length) a'.bindOut = v2 := by rw [hsame.bindOut]; exact hof v2 _ hs2
    have hac' : ∀ (i : Nat) p, prog[i]? = some p → a'.archIn i c = p.2 := by
      intro i p hp
      rw [← hac i p hp]
      exact hsame.const i (c, t) (by rw [hc]; exact List.mem_singleton.mpr rfl)
    refine ⟨?_, ?_⟩
    · intro y hy
      unfold multiValidConds at hy
      rcases List.mem_append.mp hy with hy | hy
      · simp only [List.mem_cons, List.not_mem_nil, or_false] at hy
        rcases hy with rfl | rfl
        · rw [hb1]; exact hv1
        · rw [hb2]; exact hv2
      · obtain ⟨i, hir, hy⟩ := List.mem_flatMap.mp hy
        rw [hc] at hy
        have hyy := List.mem_singleton.mp hy
        rw [hyy]
        have hil : i < prog.length := by rw [hl]; exact List.mem_range.mp hir
        show pb.isValid (a'.archIn i c) = true
        rw [hac' i prog[i] (List.getElem?_eq_getElem hil)]
        exact (hcor.valid _ (List.getElem_mem hil)).1
    · rintro hrepl ⟨j, l, hj, hmj, hall⟩
      rw [List.getElem?_map] at hj
      have hjl : j < valid.length := by
        rcases Nat.lt_or_ge j valid.length with h | h
        · exact h
        · rw [List.getElem?_eq_none h] at hj; cases hj
      have hjb : j = bi := match_unique pb.enc valid.length a'.bindIn j bi hjl hbi' hmj (by rw [hb1]; exact hm1)
      subst hjb
      rw [List.getElem?_eq_getElem hjl] at hj
      have hl' : pick blocks valid[j] = l := Option.some.inj hj
      rw [List.getElem_map] at hbie
      rw [hbie] at hl'
      subst hl'
      have heq : ∀ (i : Nat) p, prog[i]? = some p → EqsHold pb a' true p.1 := by
        intro i p hp
        have hin : i < n := by
          rcases Nat.lt_or_ge i prog.length with h | h
          · omega
          · rw [List.getElem?_eq_none h] at hp; cases hp
        have hwi := wires_of hw i p.1 (by rw [List.getElem?_map, hp]; rfl)
        rw [← translate_real pb a' hin p.1 hwi hrepl]
        exact hall _ (List.mem_map_of_mem (f := (·.1)) (List.mem_of_getElem? hp))
      have hcons := consistent pb c prog hw a' hac' heq
      have hn1 : n - 1 < prog.length := by omega
      have hlastv := hcons (n - 1) prog[n - 1] (List.getElem?_eq_getElem hn1)
      obtain ⟨o, ho1, ho2⟩ := hcomp a'.irBB a'.ir a'.archIn hsort'.ir (fun i e he => hsort'.archIn i e (List.mem_filter.mp he).1)
      rw [(exec_last pb c prog a'.ir a'.archIn hn hw).2, hlastv] at ho1
      have ho := Option.some.inj ho1
      subst ho
      refine ⟨bo, [ob], by rw [List.getElem?_map, List.getElem?_eq_getElem hbo, hboe]; rfl, by rw [hb2]; exact hm2, ?_⟩
      intro b hb
      have := List.mem_singleton.mp hb
      subst this
      intro e he s hs
      obtain ⟨k, hk, hke⟩ := List.mem_iff_getElem.mp he
      have hlen := hob.length_eq
      have hk2 : k < (pb.irOut.map (fun e => (MPath.irOut (F := F) e.1, e.2))).length := by omega
      have hrel := hob.get hk hk2
      simp only [List.get_eq_getElem] at hrel
      rw [hke] at hrel
      obtain ⟨ht, hsrc⟩ := hrel
      rcases hsrc with ⟨_, h⟩ | ⟨i, hi1, hi2⟩
      · cases h
      rw [hs] at hi1
      have := Option.some.inj hi1
      subst this
      obtain ⟨w, hw1, hw2⟩ := List.mem_map.mp hi2
      have hsw : s = .archOut (n - 1) w.1 := (congrArg Prod.fst hw2).symm
      rw [List.getElem_map] at ht
      rw [ht, hsw]
      refine ho2 w.1 _ ?_
      rw [hl, ← hsw, ← hs]
      have : e = (e.1, e.2) := rfl
      rw [this, ht] at he
      exact he
  unfold multiSolve
  rw [hbuild]
  obtain ⟨r0, hr0⟩ := hform a0
  simp only [hr0]
  cases hsol : solve (multiSat pb dom n ⟨blocks, valid, outs⟩) with
  | none => exact absurd hsol (hcomplete _ ⟨a, hsat, hasort⟩)
  | some a1 =>
    obtain ⟨hs, hsrt⟩ := hsolve _ a1 hsol
    obtain ⟨r1, hf1, hi1⟩ := formula_iff pb n ⟨blocks, valid, outs⟩ a1 hB.ne hout hB.real
    have h1 := hs a1 hsrt ⟨rfl, rfl, fun _ _ _ => rfl, rfl⟩
    rw [hf1] at h1
    obtain ⟨hconds, _⟩ := hi1.mp (Except.ok.inj h1)
    have hv : pb.enc.isValid valid.length (BV.ofNat (pb.enc.varLen valid.length) a1.bindIn) = true := hconds _ (by simp [multiValidConds])
    obtain ⟨k, hk, _, hd⟩ := selected pb.enc _ _ (List.length_pos_iff.mpr hB.ne) hv
    have : multiRR pb n ⟨blocks, valid, outs⟩ a1 =
        .ok ((pick blocks valid[k]).zip ((List.range n).map (fun i => pb.constDict.map (fun e => a1.archIn i e.1)))) := by
      unfold multiRR
      simp only [hd, List.getElem?_eq_getElem hk]
    simp only [this]
    exact ⟨_, rfl⟩

namespace Mu

/-- Solvers that satisfy both contracts exist. -/
noncomputable def someSolve (pb : MultiPb F T V) (dom : T → V → Prop) (φ : MuAsg F V → Prop) : Option (MuAsg F V) :=
  open Classical in if h : ∃ a, φ a ∧ MuSorted pb dom a then some h.choose else none

omit [DecidableEq F] [DecidableEq T] [DecidableEq V] in
theorem someSolve_sound (pb : MultiPb F T V) (dom : T → V → Prop) (φ : MuAsg F V → Prop) (a : MuAsg F V) (h : someSolve pb dom φ = some a) :
    φ a ∧ MuSorted pb dom a := by
  unfold someSolve at h
  split at h
  · next hex =>
    have := Option.some.inj h
    subst this
    exact hex.choose_spec
  · cases h

omit [DecidableEq F] [DecidableEq T] [DecidableEq V] in
theorem someSolve_complete (pb : MultiPb F T V) (dom : T → V → Prop) (φ : MuAsg F V → Prop) (h : ∃ a, φ a ∧ MuSorted pb dom a) : someSolve pb dom φ ≠ none := by
  unfold someSolve
  rw [dif_pos h]
  exact Option.some_ne_none _

/-- Architecture: field 0 is the instruction (true: and, false: or), 1 and 2 the operands, output 0.  IR: `(x0 && x1) || x2`. -/
def exPb (useReal : Bool) : MultiPb Nat Bool Bool where
  irIn := [(0, false), (1, false), (2, false)]
  irOut := [(0, false)]
  archIn := [(0, true), (1, false), (2, false)]
  archOut := [(0, false)]
  isConst := id
  ir := fun _ x _ => (x 0 && x 1) || x 2
  arch := fun x _ => if x 0 then x 1 && x 2 else x 1 || x 2
  isValid := fun _ => true
  useReal := useReal

def exProg : List (MBdg Nat × Bool) :=
  [([(some (.irIn 0), .archIn 0 1), (some (.irIn 1), .archIn 0 2)], true),
   ([(some (.archOut 0 0), .archIn 1 1), (some (.irIn 2), .archIn 1 2)], false)]

def exA0 : MuAsg Nat Bool := ⟨0, 0, fun _ => false, fun _ _ => false, fun _ _ => false, fun _ => false⟩

theorem ex_correct (r : Bool) : MultiCorrect (exPb r) (fun _ _ => True) 2 0 true exProg := by
  refine ⟨⟨rfl, ?_, ?_⟩, fun _ _ => ⟨rfl, trivial⟩, ?_⟩
  · intro i b hb
    refine (Mul.blockBinding_iff (exPb r).irIn (exPb r).archOut (exPb r).nonConst i b).mp ?_
    match i, hb with
    | 0, hb =>
      have := Option.some.inj hb
      subst this
      refine .cons ⟨rfl, .inr ⟨_, rfl, ?_⟩⟩ (.cons ⟨rfl, .inr ⟨_, rfl, ?_⟩⟩ .nil) <;> decide +revert
    | 1, hb =>
      have := Option.some.inj hb
      subst this
      refine .cons ⟨rfl, .inr ⟨_, rfl, ?_⟩⟩ (.cons ⟨rfl, .inr ⟨_, rfl, ?_⟩⟩ .nil) <;> decide +revert
  · intro g t hg
    simp only [exPb, List.mem_cons, List.not_mem_nil, or_false, Prod.mk.injEq] at hg
    rcases hg with ⟨rfl, _⟩ | ⟨rfl, _⟩ | ⟨rfl, _⟩ <;> decide
  · refine ⟨[(some (.archOut 1 0), .irOut 0)], ?_, ?_⟩
    · refine .cons ⟨rfl, .inr ⟨_, rfl, ?_⟩⟩ .nil
      decide +revert
    · intro β x u _ _
      refine ⟨_, rfl, ?_⟩
      intro h g hm
      have hm := List.mem_singleton.mp hm
      cases hm
      show ((x 0 && x 1) || x 2) = ((x 0 && x 1) || x 2)
      rfl

end Mu

open Mu

/-- Two instructions are found for `(x0 && x1) || x2`, whichever way the intermediate outputs are encoded, and whatever is returned computes it. -/
example (r : Bool) : ∃ p, multiSolve (exPb r) (fun _ _ => True) 2 (someSolve (exPb r) (fun _ _ => True)) exA0 = .ok (some p) :=
  C54_complete_partial (exPb r) _ 2 _ exA0 (by decide) (by simp [exPb]) (by simp [exPb]) (by simp [exPb]) (by simp [exPb]) rfl
    (fun _ _ => by simp [exPb]) ⟨fun _ _ => trivial, fun _ _ _ => trivial, fun _ _ _ => trivial⟩ (someSolve_sound _ _) (someSolve_complete _ _) 0 true rfl exProg (ex_correct r)

example (r : Bool) (p) (h : multiSolve (exPb r) (fun _ _ => True) 2 (someSolve (exPb r) (fun _ _ => True)) exA0 = .ok (some p)) :
    ∃ prog, p = prog.map (fun p => (p.1, [p.2])) ∧ MultiCorrect (exPb r) (fun _ _ => True) 2 0 true prog := by
  obtain ⟨c, t, hc, prog, h1, h2⟩ := C54_sound_partial (exPb r) (fun _ _ => True) 2 _ exA0 (by simp [exPb]) (by simp [exPb]) (by simp [exPb])
    (fun _ _ _ _ => trivial) (fun _ _ _ => rfl) (someSolve_sound _ _) p h
  cases hc
  exact ⟨prog, h1, h2⟩

/-- `None` means that no program of that length exists. -/
theorem C54_none (pb : MultiPb F T V) (dom : T → V → Prop) (n : Nat) (solve : (MuAsg F V → Prop) → Option (MuAsg F V)) (a0 : MuAsg F V)
    (hn : 1 ≤ n) (hir : (pb.irIn.map (·.1)).Nodup) (hai : (pb.archIn.map (·.1)).Nodup) (hao : (pb.archOut.map (·.1)).Nodup)
    (ha0 : MuSorted pb dom a0)
    (hsolve : ∀ φ a, solve φ = some a → φ a ∧ MuSorted pb dom a)
    (hcomplete : ∀ φ, (∃ a, φ a ∧ MuSorted pb dom a) → solve φ ≠ none)
    (h : multiSolve pb dom n solve a0 = .ok none) : ∃ c t, pb.constDict = [(c, t)] ∧ ∀ prog, ¬ MultiCorrect pb dom n c t prog := by
  have hb : ∃ bs, multiBuild pb n = .ok bs := by
    unfold multiSolve at h
    split at h
    · cases h
    · next bs hbs => exact ⟨bs, hbs⟩
  obtain ⟨bs, hbs⟩ := hb
  have hB := built_of hbs
  obtain ⟨c, t, hc⟩ := hB.one
  refine ⟨c, t, hc, ?_⟩
  intro prog hcor
  have harch : pb.archBB = false := by
    by_contra hne
    have hne : pb.archBB = true := by simpa using hne
    have := hB.noConst
    unfold multiBuild at hbs
    rw [this, hc, hne] at hbs
    have hn0 : n ≠ 0 := by omega
    simp [hn0] at hbs
  obtain ⟨r, hr⟩ := C54_complete_partial pb dom n solve a0 hn hir hai hao
    (fun e he => by
      have := List.filter_eq_nil_iff.mp hB.noConst e he
      simpa using this) harch (fun hu h1 => (hB.real hu h1).2) ha0 hsolve hcomplete c t hc prog hcor
  rw [hr] at h
  cases h

namespace Mu

/-- An IR class without inputs that returns `f` of the outputs of its black boxes, and an architecture that can only return false. -/
def bbPb (f : (Nat → Bool) → Bool) : MultiPb Nat Bool Bool where
  irIn := []
  irOut := [(0, false)]
  archIn := [(0, true)]
  archOut := [(0, false)]
  isConst := id
  ir := fun β _ _ => f β
  arch := fun _ _ => false
  isValid := fun _ => true

theorem bb_no_program (f : (Nat → Bool) → Bool) (β : Nat → Bool) (hf : f β = true) (c t prog) : ¬ MultiCorrect (bbPb f) (fun _ _ => True) 1 c t prog := by
  intro hcor
  obtain ⟨ob, hob, hcomp⟩ := hcor.computes
  have hl : prog.length = 1 := by have := hcor.wiring.len; simpa using this
  have hmem : (some (.archOut (prog.length - 1) 0), .irOut 0) ∈ ob := by
    rw [hl]
    cases hob with
    | cons h1 h2 =>
      obtain ⟨ht, ⟨_, hf⟩ | ⟨i, hi, hm⟩⟩ := h1
      · cases hf
      · rename_i e l
        have hm' := List.mem_singleton.mp hm
        have : i = .archOut 0 0 := (Prod.mk.inj hm').1
        subst this
        have : e = (some (.archOut 0 0), .irOut 0) := Prod.ext hi ht
        rw [this]
        exact List.mem_cons_self
  obtain ⟨o, ho, h1⟩ := hcomp β (fun _ => false) (fun _ _ => false) (fun _ _ => trivial) (fun _ _ _ => trivial)
  have hlast := (exec_last (bbPb f) c prog (fun _ => false) (fun _ _ => false) (by decide) hcor.wiring).2
  rw [hlast] at ho
  rw [(exec_spec (bbPb f).arch c (fun _ => false) (fun _ _ => false) prog hcor.wiring).2 0 prog[0] (List.getElem?_eq_getElem (by omega))] at ho
  have := h1 0 0 hmem
  rw [← Option.some.inj ho] at this
  have h2 : false = f β := this
  rw [hf] at h2
  cases h2

theorem bb_build (f : (Nat → Bool) → Bool) : multiBuild (bbPb f) 1 = .ok ⟨[[[]]], [[0]], [[(some (.archOut 0 0), .irOut 0)]]⟩ := rfl

/-- Whether the problem is satisfiable decides the outcome. -/
theorem bb_solve (f : (Nat → Bool) → Bool) (solve : (MuAsg Nat Bool → Prop) → Option (MuAsg Nat Bool))
    (hsolve : ∀ φ a, solve φ = some a → φ a ∧ MuSorted (bbPb f) (fun _ _ => True) a) :
    multiSolve (bbPb f) (fun _ _ => True) 1 solve exA0 = .ok none ∨ ∃ r, multiSolve (bbPb f) (fun _ _ => True) 1 solve exA0 = .ok (some r) := by
  unfold multiSolve
  rw [bb_build]
  obtain ⟨r0, hf0, _⟩ := formula_iff (bbPb f) 1 ⟨[[[]]], [[0]], [[(some (.archOut 0 0), .irOut 0)]]⟩ exA0 (by simp) (by simp) (by simp [bbPb])
  simp only [hf0]
  cases hs : solve (multiSat (bbPb f) (fun _ _ => True) 1 ⟨[[[]]], [[0]], [[(some (.archOut 0 0), .irOut 0)]]⟩) with
  | none => exact .inl rfl
  | some a =>
    right
    obtain ⟨ha, hsrt⟩ := hsolve _ a hs
    have hv := ha a hsrt ⟨rfl, rfl, fun _ _ _ => rfl, rfl⟩
    obtain ⟨r1, hf1, hi1⟩ := formula_iff (bbPb f) 1 ⟨[[[]]], [[0]], [[(some (.archOut 0 0), .irOut 0)]]⟩ a (by simp) (by simp) (by simp [bbPb])
    rw [hf1] at hv
    have hv' := (hi1.mp (Except.ok.inj hv)).1 ((bbPb f).enc.isValid 1 (BV.ofNat ((bbPb f).enc.varLen 1) a.bindIn)) (by simp [multiValidConds])
    obtain ⟨k, hk, _, hd⟩ := selected (bbPb f).enc 1 a.bindIn (by decide) hv'
    have hk0 : k = 0 := by omega
    subst hk0
    unfold multiRR
    simp only [List.length_singleton, hd, List.getElem?_cons_zero]
    exact ⟨_, rfl⟩

theorem bb_none (solve : (MuAsg Nat Bool → Prop) → Option (MuAsg Nat Bool))
    (hsolve : ∀ φ a, solve φ = some a → φ a ∧ MuSorted (bbPb fun _ => true) (fun _ _ => True) a) :
    multiSolve (bbPb fun _ => true) (fun _ _ => True) 1 solve exA0 = .ok none := by
  rcases bb_solve (fun _ => true) solve hsolve with h | ⟨r, h⟩
  · exact h
  · obtain ⟨c, t, _, prog, _, hcor⟩ := C54_sound_partial (bbPb fun _ => true) (fun _ _ => True) 1 solve exA0 (by simp [bbPb]) (by simp [bbPb]) (by simp [bbPb])
      (fun _ _ _ _ => trivial) (fun _ _ _ => rfl) hsolve r h
    exact absurd hcor (bb_no_program _ (fun _ => false) rfl c t prog)

end Mu

example : ∃ c t, (bbPb fun _ => true).constDict = [(c, t)] ∧ ∀ prog, ¬ MultiCorrect (bbPb fun _ => true) (fun _ _ => True) 1 c t prog :=
  C54_none (bbPb fun _ => true) (fun _ _ => True) 1 (someSolve _ _) exA0 (by decide) (by simp [bbPb]) (by simp [bbPb]) (by simp [bbPb])
    ⟨fun _ _ => trivial, fun _ _ _ => trivial, fun _ _ _ => trivial⟩ (someSolve_sound _ _) (someSolve_complete _ _) (bb_none _ (someSolve_sound _ _))

/-- C54 violated: the outputs of the black boxes in the IR are not universally quantified (multi.py:84-88), so an IR class that returns the output of a black
box is "mapped" to an architecture that always returns false, although no program computes it. -/
theorem C54_violated_black_box (solve : (MuAsg Nat Bool → Prop) → Option (MuAsg Nat Bool))
    (hsolve : ∀ φ a, solve φ = some a → φ a ∧ MuSorted (bbPb fun β => β 0) (fun _ _ => True) a)
    (hcomplete : ∀ φ, (∃ a, φ a ∧ MuSorted (bbPb fun β => β 0) (fun _ _ => True) a) → solve φ ≠ none) :
    (∃ r, multiSolve (bbPb fun β => β 0) (fun _ _ => True) 1 solve exA0 = .ok (some r)) ∧
    ∀ c t prog, ¬ MultiCorrect (bbPb fun β => β 0) (fun _ _ => True) 1 c t prog := by
  refine ⟨?_, bb_no_program _ (fun _ => true) rfl⟩
  rcases bb_solve (fun β => β 0) solve hsolve with h | h
  · exfalso
    have hsat : multiSat (bbPb fun β => β 0) (fun _ _ => True) 1 ⟨[[[]]], [[0]], [[(some (.archOut 0 0), .irOut 0)]]⟩ exA0 := by
      rintro ⟨b1, b2, x, i, o, β⟩ _ ⟨h1, h2, _, h4⟩
      simp only at h1 h2 h4
      subst h1 h2 h4
      rfl
    unfold multiSolve at h
    rw [bb_build] at h
    have hf : multiFormula (bbPb fun β => β 0) 1 ⟨[[[]]], [[0]], [[(some (.archOut 0 0), .irOut 0)]]⟩ exA0 = .ok true := rfl
    simp only [hf] at h
    split at h
    · next hs => exact hcomplete _ ⟨exA0, hsat, ⟨fun _ _ => trivial, fun _ _ _ => trivial, fun _ _ _ => trivial⟩⟩ hs
    · split at h <;> cases h
  · exact h

/-- A black box in the architecture class is always an AttributeError. -/
theorem C54_arch_black_box (pb : MultiPb F T V) (dom : T → V → Prop) (n : Nat) (hn : 1 ≤ n) (solve : (MuAsg F V → Prop) → Option (MuAsg F V)) (a0 : MuAsg F V)
    (hconst : ∀ e ∈ pb.irIn, pb.isConst e.2 = false) (hone : pb.constDict.length = 1) (h : pb.archBB = true) :
    multiSolve pb dom n solve a0 = .error .attributeError := by
  have hb : multiBuild pb n = .error .attributeError := by
    unfold multiBuild
    have h0 : pb.irIn.filter (fun e => pb.isConst e.2) = [] := by
      rw [List.filter_eq_nil_iff]
      intro e he
      rw [hconst e he]
      exact Bool.false_ne_true
    have hn0 : n ≠ 0 := by omega
    rw [h0, hone, h]
    simp [hn0]
  unfold multiSolve
  rw [hb]

example : multiSolve { exPb true with archBB := true } (fun _ _ => True) 2 (fun _ => none) exA0 = .error .attributeError :=
  C54_arch_black_box _ _ 2 (by decide) _ _ (by simp [exPb]) rfl rfl

end Peak
