import Verif.Spec.RegGen
/-!
# C76: register classes of a family
-/

namespace Peak.RG

variable {T I V : Type} [DecidableEq T]

/-! ### Histories keep classes and instances -/

theorem run_append (E : Env T I V) (a b : List (Op T I V)) (p : Proc T I V) : Proc.run E (a ++ b) p = Proc.run E b (Proc.run E a p) := by
  induction a generalizing p with
  | nil => rfl
  | cons op a ih => exact ih _

omit [DecidableEq T] in
theorem on_classes (p : Proc T I V) (n : Nat) (f : Obj T I V → Res V × Option V) : (p.on n f).2.classes = p.classes := by
  unfold Proc.on; split <;> rfl

theorem step_classes (E : Env T I V) (p : Proc T I V) (op : Op T I V) : ∃ l, (p.step E op).2.classes = p.classes ++ l := by
  cases op with
  | gen f t i k =>
    simp only [Proc.step, Proc.gen]
    split
    · split
      · exact ⟨[], (List.append_nil _).symm⟩
      · exact ⟨_, rfl⟩
    · exact ⟨[], (List.append_nil _).symm⟩
  | new c =>
    simp only [Proc.step, Proc.new]
    split
    · exact ⟨[], (List.append_nil _).symm⟩
    · split <;> exact ⟨[], (List.append_nil _).symm⟩
  | call o v en => exact ⟨[], by rw [List.append_nil]; exact on_classes ..⟩
  | prev o => exact ⟨[], by rw [List.append_nil]; exact on_classes ..⟩
  | poke o v => exact ⟨[], by rw [List.append_nil]; exact on_classes ..⟩
  | peak o => exact ⟨[], by rw [List.append_nil]; exact on_classes ..⟩

theorem run_classes (E : Env T I V) (ops : List (Op T I V)) (p : Proc T I V) : ∃ l, (Proc.run E ops p).classes = p.classes ++ l := by
  induction ops generalizing p with
  | nil => exact ⟨[], (List.append_nil _).symm⟩
  | cons op ops ih =>
    obtain ⟨l, h⟩ := ih (p.step E op).2
    obtain ⟨l', h'⟩ := step_classes E p op
    exact ⟨l' ++ l, by rw [Proc.run, h, h', List.append_assoc]⟩

theorem class_kept (E : Env T I V) (ops : List (Op T I V)) {p : Proc T I V} {n : Nat} {c : Cls T I} (h : p.classes[n]? = some c) :
    (Proc.run E ops p).classes[n]? = some c := by
  obtain ⟨l, e⟩ := run_classes E ops p
  rw [e, List.getElem?_append_left (List.getElem?_eq_some_iff.mp h).1, h]

/-- A class is found again: the first match stays the first. -/
theorem gen_found (E : Env T I V) {p : Proc T I V} {f : Fam} {t : T} {i : I} {k : Kind} (hh : E.hashable i = true) (hr : E.same i i = true) :
    ∃ n c, p.gen E f t i k = (.cls n, (p.gen E f t i k).2) ∧ (p.gen E f t i k).2.classes[n]? = some c ∧ c.matches E f t i k = true ∧
      (∀ m c', m < n → (p.gen E f t i k).2.classes[m]? = some c' → c'.matches E f t i k = false) := by
  unfold Proc.gen
  rw [if_pos hh]
  cases e : p.classes.findIdx? (fun c => c.matches E f t i k) with
  | some n =>
    rw [List.findIdx?_eq_some_iff_getElem] at e
    obtain ⟨hn, h1, h2⟩ := e
    refine ⟨n, p.classes[n], rfl, List.getElem?_eq_getElem hn, h1, fun m c' hm hc => ?_⟩
    have hl : m < p.classes.length := by omega
    rw [List.getElem?_eq_getElem hl] at hc
    cases hc
    exact (Bool.not_eq_true _).mp (h2 m hm)
  | none =>
    rw [List.findIdx?_eq_none_iff] at e
    refine ⟨_, ⟨f, t, i, k⟩, rfl, by simp, by simp [Cls.matches, hr], fun m c' hm hc => ?_⟩
    rw [List.getElem?_append_left hm] at hc
    exact e c' (List.mem_of_getElem? hc)

theorem found_gen (E : Env T I V) {p : Proc T I V} {f : Fam} {t : T} {i : I} {k : Kind} (hh : E.hashable i = true) {n : Nat} {c : Cls T I}
    (h1 : p.classes[n]? = some c) (h2 : c.matches E f t i k = true) (h3 : ∀ m c', m < n → p.classes[m]? = some c' → c'.matches E f t i k = false) :
    p.gen E f t i k = (.cls n, p) := by
  unfold Proc.gen
  rw [if_pos hh]
  have : p.classes.findIdx? (fun c => c.matches E f t i k) = some n := by
    rw [List.findIdx?_eq_some_iff_getElem]
    have hl := (List.getElem?_eq_some_iff.mp h1).1
    refine ⟨hl, ?_, fun j hj => ?_⟩
    · rw [List.getElem?_eq_getElem hl] at h1
      cases h1
      exact h2
    · have hl' : j < p.classes.length := by omega
      rw [h3 j _ hj (List.getElem?_eq_getElem hl')]
      decide
  rw [this]

/-! ### The theorems -/

/-- C76: asking again for a register class, after any history, gives the class again: of the same family or another one of its class. -/
theorem C76_same (E : Env T I V) (hE : Coherent E) (p : Proc T I V) (f f' : Fam) (hf : f.cls = f'.cls) (t : T) (i : I) (hh : E.hashable i = true) (k : Kind)
    (ops : List (Op T I V)) : ∃ n, (p.step E (.gen f t i k)).1 = .cls n ∧
      ((Proc.run E ops (p.step E (.gen f t i k)).2).step E (.gen f' t i k)).1 = .cls n := by
  obtain ⟨n, c, h1, h2, h3, h4⟩ := gen_found (p := p) (f := f) (t := t) (k := k) E hh (hE.1 i)
  have hm : ∀ c : Cls T I, c.matches E f' t i k = c.matches E f t i k := fun c => by simp only [Cls.matches, hf]
  refine ⟨n, by simp only [Proc.step]; rw [h1], ?_⟩
  simp only [Proc.step]
  rw [found_gen E hh (class_kept E ops h2) ((hm c).trans h3)]
  intro m c' hmn hc
  rw [hm]
  have hl := (List.getElem?_eq_some_iff.mp h2).1
  obtain ⟨l, e⟩ := run_classes E ops (p.gen E f t i k).2
  rw [e, List.getElem?_append_left (by omega)] at hc
  exact h4 m c' hmn hc

/-- C76: requests that differ in type, kind, class of the family or (as keys) in the initial value give different classes. -/
theorem C76_distinct (E : Env T I V) (hE : Coherent E) (hs : ∀ i j, E.same i j = E.same j i) (ht : ∀ i j l, E.same i j = true → E.same j l = true → E.same i l = true)
    (p : Proc T I V) (f f' : Fam) (t t' : T) (i i' : I) (hh : E.hashable i = true) (hh' : E.hashable i' = true) (k k' : Kind) (ops : List (Op T I V))
    (hd : f.cls ≠ f'.cls ∨ t ≠ t' ∨ E.same i i' = false ∨ k ≠ k') :
    ∃ n n', (p.step E (.gen f t i k)).1 = .cls n ∧ ((Proc.run E ops (p.step E (.gen f t i k)).2).step E (.gen f' t' i' k')).1 = .cls n' ∧ n ≠ n' := by
  obtain ⟨n, c, h1, h2, h3, -⟩ := gen_found (p := p) (f := f) (t := t) (k := k) E hh (hE.1 i)
  obtain ⟨n', c', g1, g2, g3, -⟩ := gen_found (p := Proc.run E ops (p.gen E f t i k).2) (f := f') (t := t') (k := k') E hh' (hE.1 i')
  refine ⟨n, n', by simp only [Proc.step]; rw [h1], by simp only [Proc.step]; rw [g1], ?_⟩
  rintro rfl
  have hk := class_kept E (ops ++ [.gen f' t' i' k']) h2
  rw [run_append] at hk
  have : c = c' := Option.some.inj (hk.symm.trans g2)
  subst this
  simp only [Cls.matches, Bool.and_eq_true, decide_eq_true_eq] at h3 g3
  obtain ⟨⟨⟨a1, a2⟩, a3⟩, a4⟩ := h3
  obtain ⟨⟨⟨b1, b2⟩, b3⟩, b4⟩ := g3
  rcases hd with h | h | h | h
  · exact h (a1.symm.trans b1)
  · exact h (a2.symm.trans b2)
  · rw [ht i c.init i' (by rw [hs]; exact a3) b3] at h
    cases h
  · exact h (a4.symm.trans b4)

omit [DecidableEq T] in
theorem on_obj (p : Proc T I V) (m n : Nat) (f : Obj T I V → Res V × Option V) {o : Obj T I V} (h : p.objs[n]? = some o) :
    (p.on m f).2.objs[n]? = some (if m = n then { o with value := (f o).2 } else o) := by
  unfold Proc.on
  split
  · next e =>
    split
    · next hm => subst hm; rw [h] at e; cases e
    · exact h
  · next x e =>
    by_cases hm : m = n
    · subst hm
      rw [h] at e
      cases e
      rw [if_pos rfl, List.getElem?_set_self (List.getElem?_eq_some_iff.mp h).1]
    · rw [if_neg hm, List.getElem?_set_ne hm, h]

omit [DecidableEq T] in
theorem on_obj_same (p : Proc T I V) (m n : Nat) (f : Obj T I V → Res V × Option V) {o : Obj T I V} (h : p.objs[n]? = some o) (hf : ∀ x, (f x).2 = x.value) :
    (p.on m f).2.objs[n]? = some o := by
  rw [on_obj p m n f h]
  split
  · rw [hf]
  · rfl

theorem obj_kept (E : Env T I V) (ops : List (Op T I V)) {p : Proc T I V} {n : Nat} {c : Cls T I} {v : Option V} (h : p.objs[n]? = some ⟨c, v⟩) :
    (Proc.run E ops p).objs[n]? = some ⟨c, stored E n c.ty c.kind v ops⟩ := by
  induction ops generalizing p v with
  | nil => rw [stored]; exact h
  | cons op ops ih =>
    have key : (p.step E op).2.objs[n]? = some ⟨c, stored E n c.ty c.kind v [op]⟩ ∧ stored E n c.ty c.kind v (op :: ops) = stored E n c.ty c.kind (stored E n c.ty c.kind v [op]) ops := by
      have other : (∀ k v' o', stored E n c.ty k v' (op :: o') = stored E n c.ty k v' o') → (p.step E op).2.objs[n]? = some ⟨c, v⟩ →
          (p.step E op).2.objs[n]? = some ⟨c, stored E n c.ty c.kind v [op]⟩ ∧
          stored E n c.ty c.kind v (op :: ops) = stored E n c.ty c.kind (stored E n c.ty c.kind v [op]) ops := by
        intro h1 h2
        rw [h1 c.kind v [], h1]
        refine ⟨?_, ?_⟩
        · rw [h2]; cases c.kind <;> rfl
        · cases c.kind <;> rfl
      cases op with
      | gen f t i k =>
        refine other (fun k v' o' => by cases k <;> simp only [stored]) ?_
        simp only [Proc.step, Proc.gen]
        split
        · split <;> exact h
        · exact h
      | new d =>
        refine other (fun k v' o' => by cases k <;> simp only [stored]) ?_
        simp only [Proc.step, Proc.new]
        split
        · exact h
        · split
          · exact h
          · rw [List.getElem?_append_left (List.getElem?_eq_some_iff.mp h).1]
            exact h
      | prev m =>
        exact other (fun k v' o' => by cases k <;> simp only [stored]) (on_obj_same p m n _ h (fun _ => rfl))
      | peak m =>
        exact other (fun k v' o' => by cases k <;> simp only [stored]) (on_obj_same p m n _ h (fun _ => rfl))
      | call m x en =>
        rw [show p.step E (.call m x en) = p.on m (fun y => y.call x en) from rfl, on_obj p m n _ h]
        rcases hk : c.kind with _ | _ | _
        · rcases x with _ | x
          · rcases en with _ | _ | _ <;> simp only [stored, Obj.call, hk, regCall, Option.map] <;> refine ⟨?_, trivial⟩ <;> split <;> rfl
          · rcases en with _ | _ | _
            · simp only [stored, Obj.call, hk]; refine ⟨?_, trivial⟩; split <;> rfl
            · simp only [stored, Obj.call, hk, regCall, Option.map]; refine ⟨?_, trivial⟩; split <;> rfl
            · simp only [stored, Obj.call, hk, regCall, Option.map, if_true]
              refine ⟨?_, trivial⟩
              split <;> rfl
        · rcases en with _ | _
          · simp only [stored, Obj.call, hk]
            refine ⟨?_, trivial⟩
            split <;> rfl
          · simp only [stored, Obj.call, hk]; refine ⟨?_, trivial⟩; split <;> rfl
        · simp only [stored, Obj.call, hk]; refine ⟨?_, trivial⟩; split <;> rfl
      | poke m x =>
        rw [show p.step E (.poke m x) = p.on m (fun y => y.poke E x) from rfl, on_obj p m n _ h]
        rcases hk : c.kind with _ | _ | _
        · simp only [stored, Obj.poke, hk]; refine ⟨?_, trivial⟩; split <;> rfl
        · simp only [stored, Obj.poke, hk]; refine ⟨?_, trivial⟩; split <;> rfl
        · simp only [stored, Obj.poke, hk]
          refine ⟨?_, trivial⟩
          by_cases hm : m = n <;> by_cases ht : E.isT c.ty x = true <;> simp [hm, ht]
    rw [Proc.run, ih key.1, key.2]

omit [DecidableEq T] in
theorem on_res (p : Proc T I V) (n : Nat) (f : Obj T I V → Res V × Option V) {o : Obj T I V} (h : p.objs[n]? = some o) : (p.on n f).1 = (f o).1 := by
  unfold Proc.on
  rw [h]

/-- C76: whatever a process did before, between and after: a register of the class got for `T` and `init` begins with `T(init)`, and each use of
it gives what its own earlier uses stored. -/
theorem C76_register (E : Env T I V) (hE : Coherent E) (p : Proc T I V) (f : Fam) (t : T) (i : I) (hh : E.hashable i = true) (k : Kind) (v : V)
    (hc : E.conv t i = .ok v) (ops₁ : List (Op T I V)) :
    ∃ c, (p.step E (.gen f t i k)).1 = .cls c ∧
      let p₁ := Proc.run E ops₁ (p.step E (.gen f t i k)).2
      ∃ n, (p₁.step E (.new c)).1 = .obj n ∧ ∀ ops₂, let p₂ := Proc.run E ops₂ (p₁.step E (.new c)).2
        let s := stored E n t k (some v) ops₂
        (k = .enable → (∀ x e, (p₂.step E (.call n (some x) (some e))).1 = .val s) ∧ (∀ e, (p₂.step E (.call n none (some e))).1 = .err .assertionError)) ∧
        (k = .plain → ∀ x, (p₂.step E (.call n x none)).1 = .val s) ∧
        (k ≠ .attr → (p₂.step E (.prev n)).1 = .val s) ∧
        (k = .attr → (p₂.step E (.peak n)).1 = .val s ∧ ∀ x, (p₂.step E (.poke n x)).1 = if E.isT t x then .unit else .err .typeError) := by
  obtain ⟨c, d, h1, h2, h3, -⟩ := gen_found (p := p) (f := f) (t := t) (k := k) E hh (hE.1 i)
  refine ⟨c, by simp only [Proc.step]; rw [h1], ?_⟩
  have h2' := class_kept E ops₁ h2
  simp only [Cls.matches, Bool.and_eq_true, decide_eq_true_eq] at h3
  obtain ⟨⟨⟨-, ht⟩, hi⟩, hk⟩ := h3
  have hv : E.conv d.ty d.init = .ok v := by rw [hE.2 _ _ _ hi, ht]; exact hc
  dsimp only
  rw [show p.step E (.gen f t i k) = p.gen E f t i k from rfl]
  generalize hp : Proc.run E ops₁ (p.gen E f t i k).2 = p₁ at h2' ⊢
  have hnew : p₁.step E (.new c) = (.obj p₁.objs.length, { p₁ with objs := p₁.objs ++ [⟨d, some v⟩] }) := by
    simp only [Proc.step, Proc.new, h2', hv]
  refine ⟨p₁.objs.length, by rw [hnew], fun ops₂ => ?_⟩
  rw [hnew]
  have ho := obj_kept E ops₂ (p := { p₁ with objs := p₁.objs ++ [⟨d, some v⟩] }) (n := p₁.objs.length) (c := d) (v := some v) (by simp)
  subst ht
  subst hk
  refine ⟨fun hk => ⟨fun x e => ?_, fun e => ?_⟩, fun hk x => ?_, fun hk => ?_, fun hk => ⟨?_, fun x => ?_⟩⟩
  · rw [show ∀ q : Proc T I V, q.step E (.call p₁.objs.length (some x) (some e)) = q.on _ (fun y => y.call (some x) (some e)) from fun _ => rfl, on_res _ _ _ ho]
    simp only [Obj.call, hk, regCall, Option.map]
  · rw [show ∀ q : Proc T I V, q.step E (.call p₁.objs.length none (some e)) = q.on _ (fun y => y.call none (some e)) from fun _ => rfl, on_res _ _ _ ho]
    simp only [Obj.call, hk, regCall, Option.map]
  · rw [show ∀ q : Proc T I V, q.step E (.call p₁.objs.length x none) = q.on _ (fun y => y.call x none) from fun _ => rfl, on_res _ _ _ ho]
    simp only [Obj.call, hk]
  · rw [show ∀ q : Proc T I V, q.step E (.prev p₁.objs.length) = q.on _ (fun y => (y.prev, y.value)) from fun _ => rfl, on_res _ _ _ ho]
    cases h : d.kind with
    | attr => exact absurd h hk
    | enable => simp only [Obj.prev, h]
    | plain => simp only [Obj.prev, h]
  · rw [show ∀ q : Proc T I V, q.step E (.peak p₁.objs.length) = q.on _ (fun y => (y.peak, y.value)) from fun _ => rfl, on_res _ _ _ ho]
    simp only [Obj.peak, hk]
  · rw [show ∀ q : Proc T I V, q.step E (.poke p₁.objs.length x) = q.on _ (fun y => y.poke E x) from fun _ => rfl, on_res _ _ _ ho]
    simp only [Obj.poke, hk]
    split <;> rfl

/-- C76: what the instances do not have: a register with enable is called with two arguments and one without with one (TypeError), neither is read or assigned as an attribute; an attribute register is
neither called nor asked for `prev`.  Nothing is stored by these. -/
theorem C76_refused (E : Env T I V) (hE : Coherent E) (p : Proc T I V) (f : Fam) (t : T) (i : I) (hh : E.hashable i = true) (k : Kind) (v : V)
    (hc : E.conv t i = .ok v) (ops₁ : List (Op T I V)) :
    ∃ c, (p.step E (.gen f t i k)).1 = .cls c ∧
      let p₁ := Proc.run E ops₁ (p.step E (.gen f t i k)).2
      ∃ n, (p₁.step E (.new c)).1 = .obj n ∧ ∀ ops₂, let p₂ := Proc.run E ops₂ (p₁.step E (.new c)).2
        (k = .enable → ∀ x, (p₂.step E (.call n x none)).1 = .err .typeError) ∧
        (k = .plain → ∀ x e, (p₂.step E (.call n x (some e))).1 = .err .typeError) ∧
        (k = .attr → (∀ x e, (p₂.step E (.call n x e)).1 = .err .typeError) ∧ (p₂.step E (.prev n)).1 = .err .attributeError) ∧
        (k ≠ .attr → (p₂.step E (.peak n)).1 = .err .attributeError ∧ ∀ x, (p₂.step E (.poke n x)).1 = .err .attributeError) := by
  obtain ⟨c, d, h1, h2, h3, -⟩ := gen_found (p := p) (f := f) (t := t) (k := k) E hh (hE.1 i)
  refine ⟨c, by simp only [Proc.step]; rw [h1], ?_⟩
  have h2' := class_kept E ops₁ h2
  simp only [Cls.matches, Bool.and_eq_true, decide_eq_true_eq] at h3
  obtain ⟨⟨⟨-, ht⟩, hi⟩, hk⟩ := h3
  have hv : E.conv d.ty d.init = .ok v := by rw [hE.2 _ _ _ hi, ht]; exact hc
  dsimp only
  rw [show p.step E (.gen f t i k) = p.gen E f t i k from rfl]
  generalize hp : Proc.run E ops₁ (p.gen E f t i k).2 = p₁ at h2' ⊢
  have hnew : p₁.step E (.new c) = (.obj p₁.objs.length, { p₁ with objs := p₁.objs ++ [⟨d, some v⟩] }) := by
    simp only [Proc.step, Proc.new, h2', hv]
  refine ⟨p₁.objs.length, by rw [hnew], fun ops₂ => ?_⟩
  rw [hnew]
  have ho := obj_kept E ops₂ (p := { p₁ with objs := p₁.objs ++ [⟨d, some v⟩] }) (n := p₁.objs.length) (c := d) (v := some v) (by simp)
  subst hk
  have call : ∀ (q : Proc T I V) x e, q.step E (.call p₁.objs.length x e) = q.on _ (fun y => y.call x e) := fun _ _ _ => rfl
  have prev : ∀ q : Proc T I V, q.step E (.prev p₁.objs.length) = q.on _ (fun y => (y.prev, y.value)) := fun _ => rfl
  have peak : ∀ q : Proc T I V, q.step E (.peak p₁.objs.length) = q.on _ (fun y => (y.peak, y.value)) := fun _ => rfl
  have poke : ∀ (q : Proc T I V) x, q.step E (.poke p₁.objs.length x) = q.on _ (fun y => y.poke E x) := fun _ _ => rfl
  refine ⟨fun hk x => ?_, fun hk x e => ?_, fun hk => ⟨fun x e => ?_, ?_⟩, fun hk => ⟨?_, fun x => ?_⟩⟩
  · rw [call, on_res _ _ _ ho]; simp only [Obj.call, hk]
  · rw [call, on_res _ _ _ ho]; simp only [Obj.call, hk]
  · rw [call, on_res _ _ _ ho]; cases e <;> simp only [Obj.call, hk]
  · rw [prev, on_res _ _ _ ho]; simp only [Obj.prev, hk]
  · rw [peak, on_res _ _ _ ho]
    cases h : d.kind with
    | attr => exact absurd h hk
    | enable => simp only [Obj.peak, h]
    | plain => simp only [Obj.peak, h]
  · rw [poke, on_res _ _ _ ho]
    cases h : d.kind with
    | attr => exact absurd h hk
    | enable => simp only [Obj.poke, h]
    | plain => simp only [Obj.poke, h]

/-- C76 fails for families of one class: the second one gets the class that the first one assembled, with the passes of the first. -/
theorem C76_violated_family (E : Env T I V) (hE : Coherent E) (f f' : Fam) (hf : f.cls = f'.cls) (hne : f ≠ f') (t : T) (i : I) (hh : E.hashable i = true) (k : Kind) :
    let p := ((Proc.mk [] [] : Proc T I V).step E (.gen f t i k)).2
    ∃ n c, (p.step E (.gen f' t i k)).1 = .cls n ∧ (p.step E (.gen f' t i k)).2.classes[n]? = some c ∧ c.fam = f ∧ c.fam ≠ f' := by
  refine ⟨0, ⟨f, t, i, k⟩, ?_, ?_, rfl, hne⟩ <;> simp [Proc.step, Proc.gen, hh, Cls.matches, hE.1 i, hf, List.findIdx?_cons]

/-! ### Bit vectors -/

/-- Types: widths.  Initial values: ints (also `True` and `False`), and lists, which cannot be hashed.  Values: ints and bit vectors. -/
inductive PyInit
  | int (n : Int)
  | list
  deriving DecidableEq
inductive PyVal
  | int (n : Int)
  | bv (b : BV)
  deriving DecidableEq

def bvEnv : Env Nat PyInit PyVal where
  hashable := fun i => i != .list
  same := fun i j => i == j
  conv := fun w i => match i with | .int n => .ok (.bv (BV.ofNat w (n % 2 ^ w).toNat)) | .list => .error .typeError
  isT := fun w v => match v with | .bv b => decide (b.size = w) | .int _ => false

theorem bvEnv_coherent : Coherent bvEnv :=
  ⟨fun i => by simp [bvEnv], fun i j t h => by
    have h' : i = j := by simpa [bvEnv] using h
    rw [h']⟩

/-- Two requests, three registers: the third shares its class with the first, and no content. -/
example : let p := Proc.run bvEnv [.gen ⟨0, 0⟩ 8 (.int 5) .enable, .gen ⟨0, 0⟩ 8 (.int 5) .plain, .new 0, .new 1, .gen ⟨0, 1⟩ 8 (.int 5) .enable, .new 0,
      .call 0 (some (.bv (BV.ofNat 8 7))) (some true), .call 1 (some (.bv (BV.ofNat 8 9))) none] ⟨[], []⟩
    p.classes.length = 2 ∧ [0, 1, 2].map (fun n => (p.step bvEnv (.prev n)).1) =
      [.val (some (.bv (BV.ofNat 8 7))), .val (some (.bv (BV.ofNat 8 9))), .val (some (.bv (BV.ofNat 8 5)))] := by
  decide +kernel

/-- C76 fails for the old `gen_register2` with its default initial value: for every width the first call gives the int 0, not a bit vector. -/
theorem C76_violated_old (w : Nat) (i : PyInit) (x : BV) (e : Bool) :
    ((old w (PyVal.int 0) i).call (some (PyVal.bv x)) (some e)).1 = .val (some (.int 0)) ∧ bvEnv.isT w (.int 0) = false ∧
    ∃ v, bvEnv.conv w (.int 0) = .ok v ∧ bvEnv.isT w v = true :=
  ⟨rfl, rfl, _, rfl, by simp [bvEnv, BV.ofNat]⟩

/-- Two families of one class. -/
example : Coherent bvEnv ∧ bvEnv.hashable (.int 0) = true ∧ (Fam.mk 0 0).cls = (Fam.mk 0 1).cls ∧ Fam.mk 0 0 ≠ Fam.mk 0 1 := ⟨bvEnv_coherent, by decide⟩

end Peak.RG
