import Verif.Model.AadtClass
import Verif.Props.AssembledADT
/-!
# C72: assembled classes
-/

namespace Peak.Cl
open Peak.Spec

/-- A class that exists: made by subscripting. -/
def Exists (E : Env) (A : Ty → Except Err AsmObj) (t : Ty) (p : Params) : Prop := index E A (.ty t) p = .ok (.adt t p)

/-- The class that a field of type `tf` should have: `fam.Bit`, the vector of the same width and signedness in the family of the bit-vector type, or the assembled ADT with the same parameters. -/
def fieldClass (E : Env) (tf : Ty) (p : Params) : Cls :=
  match tf with
  | .bit _ => .bit (E.fam p.bvType)
  | .bv c w => .bv (E.fam p.bvType) (E.sgn c) w
  | t => .adt t p

/-- `isinstance(v, c)`; the model of values does not keep the signedness. -/
def IsA (v : AV) (c : Cls) : Prop :=
  match c with
  | .bit _ => ∃ b, v = .bit b
  | .bv _ _ w => ∃ b, v = .bits b ∧ b.size = w
  | .adt t _ => ∃ b, v = .adt t b

theorem index_field (E : Env) (A : Ty → Except Err AsmObj) (tf : Ty) (p : Params) (hA : ∃ o, A tf = .ok o) (hm : E.modified tf = false) :
    index E A (.ty tf) p = .ok (fieldClass E tf p) := by
  obtain ⟨o, ho⟩ := hA
  cases tf <;> simp [index, fieldClass, ho, hm]

/-- C72: `cls[k]` and `cls.k` give the class of the field, for every product, tuple and union whose field types are not modified and have assemblers, and every name the class does not have itself. -/
theorem C72_field_partial (E : Env) (A : Ty → Except Err AsmObj) (own : Key → Option Own) (t : Ty) (p : Params) (k : Key) (tf : Ty)
    (hf : t.fieldDict.lookup k = some tf) (hA : ∃ o, A tf = .ok o) (hm : E.modified tf = false) :
    getitem E A t p k = .ok (fieldClass E tf p) ∧ (own k = none → getattr E A own t p k = .ok (.cls (fieldClass E tf p))) := by
  refine ⟨by rw [getitem, hf, ← index_field E A tf p hA hm], fun ho => ?_⟩
  cases t with
  | enum c ms => simp [Ty.fieldDict] at hf
  | bit c => simp [Ty.fieldDict] at hf
  | bv c w => simp [Ty.fieldDict] at hf
  | prod c fs => simp only [getattr, ho, hf, index_field E A tf p hA hm, Except.map]
  | sum c fs => simp only [getattr, ho, hf, index_field E A tf p hA hm, Except.map]

/-- C72: a name that is no field raises `AttributeError` / `KeyError`. -/
theorem C72_missing (E : Env) (A : Ty → Except Err AsmObj) (own : Key → Option Own) (t : Ty) (p : Params) (k : Key) (hf : t.fieldDict.lookup k = none) (ho : own k = none)
    (he : ∀ c ms, t ≠ .enum c ms) : getitem E A t p k = .error .keyError ∧ getattr E A own t p k = .error .attributeError := by
  refine ⟨by rw [getitem, hf], ?_⟩
  cases t with
  | enum c ms => exact absurd rfl (he c ms)
  | bit c => simp only [getattr, ho, hf]
  | bv c w => simp only [getattr, ho, hf]
  | prod c fs => simp only [getattr, ho, hf]
  | sum c fs => simp only [getattr, ho, hf]

theorem init_isA {w : Nat} {asm : Val → Except Err BV} {t : Ty} {b : BV} {v : AV} (h : AV.init w asm t (.asm (.bits b)) = .ok v) : ∃ b', v = .adt t b' := by
  simp only [AV.init] at h
  split at h
  · simp only [Except.ok.injEq] at h
    exact ⟨_, h.symm⟩
  · simp at h

theorem new_isA (E : Env) (A : Ty → Except Err AsmObj) (p : Params) (tf : Ty) (b : BV) (v : AV) (h : AV.new A tf (.asm (.bits b)) = .ok v) : IsA v (fieldClass E tf p) := by
  cases tf with
  | bit c => simp [AV.new, AV.plain] at h
  | bv c w =>
    simp only [AV.new, AV.plain, Except.ok.injEq] at h
    subst h
    exact ⟨_, rfl, rfl⟩
  | enum c ms =>
    simp only [AV.new] at h
    split at h
    · simp at h
    · exact init_isA h
  | sum c fs =>
    simp only [AV.new] at h
    split at h
    · simp at h
    · exact init_isA h
  | prod c fs =>
    unfold AV.new at h
    split at h
    · simp at h
    · split at h
      · split at h
        · split at h
          · simp at h
          · rw [AV.fromParts] at h
            split at h
            · simp at h
            · exact init_isA h
        · simp at h
      · exact init_isA h

theorem sub_isA (E : Env) (A : Ty → Except Err AsmObj) (p : Params) (o : AsmObj) (t : Ty) (b : BV) (k : Key) (v : AV) (h : AV.sub A o t b k = .ok v) :
    ∃ tf, t.fieldDict.lookup k = some tf ∧ (∃ f, A tf = .ok f) ∧ IsA v (fieldClass E tf p) := by
  unfold AV.sub at h
  split at h
  · simp at h
  next tf hl =>
    refine ⟨tf, hl, ?_⟩
    split at h
    · simp at h
    next f hf =>
      refine ⟨⟨f, hf⟩, ?_⟩
      split at h
      · simp at h
      next r hr =>
        split at h
        · split at h
          · simp at h
          · simp only [Except.ok.injEq] at h
            exact ⟨_, h.symm⟩
        · exact new_isA E A p _ _ v h

/-- C72: the value `x.k` of an instance is an instance of the class `cls.k`. -/
theorem C72_instance (E : Env) (A : Ty → Except Err AsmObj) (own : Key → Option Own) (p : Params) (c : Nat) (fs : Fields) (b : BV) (k : Key) (v : AV)
    (h : AV.get A (.adt (.prod c fs) b) k = .ok v) (hm : ∀ tf, (Ty.prod c fs).fieldDict.lookup k = some tf → E.modified tf = false) :
    ∃ tf, (Ty.prod c fs).fieldDict.lookup k = some tf ∧ getitem E A (.prod c fs) p k = .ok (fieldClass E tf p) ∧
      (own k = none → getattr E A own (.prod c fs) p k = .ok (.cls (fieldClass E tf p))) ∧ IsA v (fieldClass E tf p) := by
  simp only [AV.get] at h
  split at h
  · simp at h
  next o ho =>
    obtain ⟨tf, hf, hA, hv⟩ := sub_isA E A p o (.prod c fs) b k v h
    have := C72_field_partial E A own (.prod c fs) p k tf hf hA (hm tf hf)
    exact ⟨tf, hf, this.1, this.2, hv⟩

/-- C72: the same for the value of an option of a union, matched or not. -/
theorem C72_instance_option (E : Env) (A : Ty → Except Err AsmObj) (p : Params) (c : Nat) (fs : Fields) (b : BV) (k : Key) (m : Bool) (v : AV)
    (h : AV.getOption A (.adt (.sum c fs) b) k = .ok (m, v)) (hm : ∀ tf, (Ty.sum c fs).fieldDict.lookup k = some tf → E.modified tf = false) :
    ∃ tf, (Ty.sum c fs).fieldDict.lookup k = some tf ∧ getitem E A (.sum c fs) p k = .ok (fieldClass E tf p) ∧ IsA v (fieldClass E tf p) := by
  simp only [AV.getOption] at h
  split at h
  · simp at h
  next o ho =>
    split at h
    · simp at h
    next f hf =>
      obtain ⟨tf, hl, hA, hv⟩ := sub_isA E A p o (.sum c fs) b k f hf
      have e : f = v := by
        split at h
        · simp at h
        · split at h
          · simp at h
          · simp only [Except.ok.injEq, Prod.mk.injEq] at h
            exact h.2
      subst e
      exact ⟨tf, hl, (C72_field_partial E A (fun _ => none) (.sum c fs) p k tf hl hA (hm tf hl)).1, hv⟩

/-- C72: two assembled classes are `==` exactly if they are the same; a class is `==` to a plain ADT class exactly if it is made from it; it is never `==` to a
class of bits or bit vectors, a member of an Enum or a value. -/
theorem C72_eq (t : Ty) (p : Params) : (∀ c, (eq t p (.cls c)).truthy = true ↔ Cls.adt t p = c) ∧
    (∀ e, (eq t p (.member e)).truthy = false) ∧ (∀ b, (eq t p (.value b)).truthy = false) ∧
    (∀ t', (∀ c, t ≠ .bit c) → (∀ c w, t ≠ .bv c w) → ((eq t p (.ty t')).truthy = true ↔ t = t')) := by
  refine ⟨fun c => by cases c <;> simp [eq, Res.truthy], fun _ => rfl, fun _ => rfl, fun t' hb hv => ?_⟩
  cases t' with
  | bit c => simpa [eq, Res.truthy] using hb c
  | bv c w => simpa [eq, Res.truthy] using hv c w
  | enum c ms => simp [eq, Res.truthy]
  | prod c fs => simp [eq, Res.truthy]
  | sum c fs => simp [eq, Res.truthy]

/-- C72 is violated: `cls != other` is true for every two assembled classes, also for a class and itself. -/
theorem C72_violated_ne (t t' : Ty) (p p' : Params) : (ne t p (.cls (.adt t' p'))).truthy = true := by
  simp only [ne, eq, inv, Res.truthy]
  split <;> decide

/-- Compared with plain ADT classes `!=` is the opposite of `==`. -/
theorem C72_ne_partial (t t' : Ty) (p : Params) (hb : ∀ c, t' ≠ .bit c) (hv : ∀ c w, t' ≠ .bv c w) :
    (ne t p (.ty t')).truthy = !(eq t p (.ty t')).truthy := by
  cases t' with
  | bit c => exact absurd rfl (hb c)
  | bv c w => exact absurd rfl (hv c w)
  | enum c ms => rfl
  | prod c fs => rfl
  | sum c fs => rfl

/-- For instances `!=` is the opposite of `==`, whatever the other operand is. -/
theorem C72_instance_ne (A : Ty → Except Err AsmObj) (t : Ty) (b : BV) (y : Arg) :
    instNe A t b y = (AV.eq A t b y).map (fun r => match r with | some x => .bit (!x) | none => .int (-1)) ∧
    ∀ r, AV.eq A t b y = .ok r → ∃ n, instNe A t b y = .ok n ∧ n.truthy = !(r.getD false) := by
  unfold instNe
  cases AV.eq A t b y with
  | error e => exact ⟨rfl, fun r h => by simp at h⟩
  | ok r =>
    cases r with
    | none => exact ⟨rfl, fun r h => by cases h; exact ⟨_, rfl, rfl⟩⟩
    | some x => exact ⟨rfl, fun r h => by cases h; exact ⟨_, rfl, by cases x <;> rfl⟩⟩

/-- C72 is violated: a field may have a name the class uses itself, although the module lists such names as reserved (25-30); creating the class raises nothing, and `cls.<name>` is not the class of the field. -/
theorem C72_violated_reserved (E : Env) (A : Ty → Except Err AsmObj) (own : Key → Option Own) (c : Nat) (fs : Fields) (p : Params) (k : Key) (o : AsmObj)
    (hA : A (.prod c fs) = .ok o) (hm : E.modified (.prod c fs) = false) (ho : own k = some .adtT) :
    Exists E A (.prod c fs) p ∧ getattr E A own (.prod c fs) p k = .ok (.own .adtT) ∧ ∀ d, getattr E A own (.prod c fs) p k ≠ .ok (.cls d) := by
  refine ⟨by simp [Exists, index, hA, hm], by simp [getattr, ho], fun d => by simp [getattr, ho]⟩

/-- C72 is violated: the members of an Enum cannot be reached through the assembled class. -/
theorem C72_violated_member (E : Env) (A : Ty → Except Err AsmObj) (own : Key → Option Own) (c : Nat) (ms : List EVal) (p : Params) (k : Key) (e : EVal) (he : ms[k]? = some e) (ho : own k = none) :
    getattr E A own (.enum c ms) p k = .error .typeError := by
  simp [getattr, ho, he, index, Except.map]

/-- C72: `T in cls` exactly if `T` is the class of a field or option; so for every field that the class has. -/
theorem C72_in (t tf : Ty) : (contains t tf = true ↔ ∃ k, (k, tf) ∈ t.fieldDict) ∧ ∀ k, t.fieldDict.lookup k = some tf → contains t tf = true := by
  have h : contains t tf = true ↔ ∃ k, (k, tf) ∈ t.fieldDict := by
    simp only [contains, List.any_eq_true, decide_eq_true_eq]
    exact ⟨fun ⟨⟨k, t'⟩, hm, e⟩ => ⟨k, by simp only at e; subst e; exact hm⟩, fun ⟨k, hm⟩ => ⟨(k, tf), hm, rfl⟩⟩
  refine ⟨h, fun k hk => h.2 ⟨k, ?_⟩⟩
  generalize t.fieldDict = l at hk
  induction l with
  | nil => simp at hk
  | cons x l ih =>
    obtain ⟨a, b⟩ := x
    simp only [List.lookup] at hk
    split at hk
    · next e =>
      have : k = a := by simpa using e
      subst this
      cases hk
      exact List.mem_cons_self
    · exact List.mem_cons_of_mem _ (ih hk)

/-- A class with one of two options asked for. -/
example : contains (.sum 0 (.cons 0 (.bv 0 8) (.cons 1 (.bit 0) .nil))) (.bit 0) = true ∧ contains (.sum 0 (.cons 0 (.bv 0 8) (.cons 1 (.bit 0) .nil))) (.bv 0 4) = false := by
  decide

/-- C72: flipping a directed class twice gives the class, flipping and qualifying change nothing but the direction, and the classes of the fields get the new direction. -/
theorem C72_flip (E : Env) (A : Ty → Except Err AsmObj) (t : Ty) (p : Params) (h : Exists E A t p) :
    (∃ p', flip E A t p = .ok (.adt t p') ∧ Exists E A t p' ∧ flip E A t p' = .ok (.adt t p) ∧ p'.assembler = p.assembler ∧ p'.bvType = p.bvType ∧
      (p.dir = some .In ↔ p'.dir = some .Out) ∧ (p.dir = some .Out ↔ p'.dir = some .In)) ∧
    (∀ d, qualify E A t p d = .ok (.adt t { p with dir := some d })) ∧
    (∀ d k, getitem E A t { p with dir := some d } k = (getitem E A t p k).map (fun c => match c with | .adt t' q => .adt t' { q with dir := some d } | c => c)) := by
  have ex : ∀ d, Exists E A t { p with dir := d } := by
    intro d
    unfold Exists at h ⊢
    cases t <;> simp only [index] at h ⊢ <;> (try simp at h)
    all_goals
      split at h
      · simp at h
      next o ho =>
        split at h
        · simp at h
        next hm => simp [hm]
  obtain ⟨a, bt, d⟩ := p
  refine ⟨?_, fun d => ex (some d), fun d' k => ?_⟩
  · match d with
    | some .In => exact ⟨⟨a, bt, some .Out⟩, ex (some .Out), ex (some .Out), ex (some .In), rfl, rfl, by simp, by simp⟩
    | some .Out => exact ⟨⟨a, bt, some .In⟩, ex (some .In), ex (some .In), ex (some .Out), rfl, rfl, by simp, by simp⟩
    | some .InOut => exact ⟨⟨a, bt, some .InOut⟩, rfl, h, rfl, rfl, rfl, by simp, by simp⟩
    | some .Undirected => exact ⟨⟨a, bt, some .Undirected⟩, rfl, h, rfl, rfl, rfl, by simp, by simp⟩
    | none => exact ⟨⟨a, bt, none⟩, rfl, h, rfl, rfl, rfl, by simp, by simp⟩
  · simp only [getitem]
    cases t.fieldDict.lookup k with
    | none => rfl
    | some tf =>
      cases tf with
      | bit c => rfl
      | bv c w => rfl
      | enum c ms =>
        simp only [index]
        cases A (.enum c ms) with
        | error e => rfl
        | ok o => cases E.modified (.enum c ms) <;> rfl
      | prod c fs =>
        simp only [index]
        cases A (.prod c fs) with
        | error e => rfl
        | ok o => cases E.modified (.prod c fs) <;> rfl
      | sum c fs =>
        simp only [index]
        cases A (.sum c fs) with
        | error e => rfl
        | ok o => cases E.modified (.sum c fs) <;> rfl

/-- C72: no assembled class is made from a modified ADT type; modified bits and bit vectors become the plain classes. -/
theorem C72_modified (E : Env) (A : Ty → Except Err AsmObj) (t : Ty) (p : Params) (hm : E.modified t = true) :
    (∃ c, index E A (.ty t) p = .ok c ∧ ∀ t' p', c ≠ .adt t' p') ∨ ∃ e, index E A (.ty t) p = .error e := by
  cases t with
  | bit c => exact .inl ⟨_, rfl, by simp⟩
  | bv c w => exact .inl ⟨_, rfl, by simp⟩
  | enum c ms => right; simp only [index, hm]; split <;> exact ⟨_, rfl⟩
  | prod c fs => right; simp only [index, hm]; split <;> exact ⟨_, rfl⟩
  | sum c fs => right; simp only [index, hm]; split <;> exact ⟨_, rfl⟩

/-- Every process meets the hypotheses: an enum and a vector of a product, in any family. -/
example (P : Process) (p : Params) (k : Key) (hk : k = 0 ∨ k = 1) :
    let E : Env := ⟨id, fun c => if c = 13 then .signed else .plain, fun _ => false⟩
    let t : Ty := .prod 11 (.cons 0 (.enum 12 [.lit 2, .auto 0, .auto 1]) (.cons 1 (.bv 13 5) .nil))
    Exists E P.asm t p ∧ getattr E P.asm (fun _ => none) t p k =
      .ok (.cls (if k = 0 then .adt (.enum 12 [.lit 2, .auto 0, .auto 1]) p else .bv p.bvType .signed 5)) := by
  intro E t
  have hw : WF t := by simp [t, WF, WFs, Fields.toList, autos]
  have hg := fun {t} (h : WF t) => P.good h
  constructor
  · obtain ⟨o, ho, _⟩ := hg hw
    simp [Exists, index, ho, t, E]
  · rcases hk with rfl | rfl
    · obtain ⟨o, ho, _⟩ := hg (t := .enum 12 [.lit 2, .auto 0, .auto 1]) (by simp [WF, autos])
      exact (C72_field_partial E P.asm (fun _ => none) t p 0 _ rfl ⟨o, ho⟩ rfl).2 rfl
    · obtain ⟨o, ho, _⟩ := hg (t := .bv 13 5) (by simp [WF])
      exact (C72_field_partial E P.asm (fun _ => none) t p 1 _ rfl ⟨o, ho⟩ rfl).2 rfl

end Peak.Cl
