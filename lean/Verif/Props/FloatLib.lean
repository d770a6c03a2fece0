import Verif.Model.FloatLib
import Verif.Props.Float
/-!
# C50: the closures of the floating-point library
-/

namespace Peak.Fl

/-- Specification: the attribute of a method, by its documented form (`fp_add` is `Add_fc`), is told apart from those of the other methods. -/
def Distinct (H : Host) : Prop := ((H.methods.filter (fun m => isFp m.1)).map (fun m => formatName m.1)).Nodup

/-- Specification: the operation of the host library that is asked for: the method, with the host mode of the same meaning, on the operands in order. -/
def Asked (H : Host) (op : String) (rm : RM) (args : List Nat) (r : HRes) : Prop := ∃ h : HostRM, h.meaning = rm.meaning ∧ H.run op h args = r

/-- Specification: the comparisons of hwtypes, whose result is a bit. -/
def Comparison (name : String) : Prop := name = "fp_eq" ∨ name = "fp_gt" ∨ name = "fp_geq" ∨ name = "fp_lt" ∨ name = "fp_leq"

theorem comparison_iff {name : String} : Comparison name ↔ name ∈ comparisons := by
  simp only [Comparison, comparisons, List.mem_cons, List.not_mem_nil, or_false]
  exact ⟨fun h => by rcases h with h | h | h | h | h <;> simp [h], fun h => by rcases h with h | h | h | h | h <;> simp [h]⟩

theorem host_unique {h : HostRM} {rm : RM} (e : h.meaning = rm.meaning) : h = rmToHost rm := by
  cases h <;> cases rm <;> first | rfl | exact absurd e (by decide)

theorem asked_iff {H : Host} {op : String} {rm : RM} {args : List Nat} {r : HRes} : Asked H op rm args r ↔ H.run op (rmToHost rm) args = r :=
  ⟨fun ⟨_, e, h⟩ => by rw [← host_unique e]; exact h, fun h => ⟨_, C42_host.1 rm, h⟩⟩

def step (d : List (List Char × Closure)) (m : String × Nat) : List (List Char × Closure) :=
  if isFp m.1 then match kind m.1 m.2 with
    | some c => (formatName m.1, c) :: d
    | none => d else d

theorem lookup_fold {n : List Char} : ∀ (ms : List (String × Nat)) (d : List (List Char × Closure)),
    (∀ m ∈ ms, isFp m.1 = true → formatName m.1 ≠ n) → (ms.foldl step d).lookup n = d.lookup n
  | [], _, _ => rfl
  | m :: ms, d, h => by
    rw [List.foldl_cons, lookup_fold ms _ (fun m' hm => h m' (List.mem_cons_of_mem _ hm))]
    unfold step
    split
    next hf =>
      split
      next c _ =>
        rw [List.lookup_cons]
        have : (n == formatName m.1) = false := by
          simp only [beq_eq_false_iff_ne, ne_eq]
          exact fun e => h m (by simp) hf e.symm
        rw [this]
      next => rfl
    next => rfl

theorem lookup_method {name : String} {params : Nat} (hf : isFp name = true) : ∀ (ms : List (String × Nat)) (d : List (List Char × Closure)),
    ((ms.filter (fun m => isFp m.1)).map (fun m => formatName m.1)).Nodup → (name, params) ∈ ms →
    d.lookup (formatName name) = none → (ms.foldl step d).lookup (formatName name) = kind name params
  | [], _, _, h, _ => by simp at h
  | m :: ms, d, nd, h, hd => by
    rw [List.foldl_cons]
    by_cases hm : m = (name, params)
    · subst hm
      simp only [List.filter_cons, hf, if_true, List.map_cons, List.nodup_cons] at nd
      rw [lookup_fold ms _ (fun m' hm' hf' e => nd.1 (List.mem_map.mpr ⟨m', List.mem_filter.mpr ⟨hm', hf'⟩, e⟩))]
      unfold step
      simp only [hf, if_true]
      cases hk : kind name params with
      | some c => simp
      | none => simp [hd]
    · have h' : (name, params) ∈ ms := by
        rcases List.mem_cons.mp h with e | e
        · exact absurd e.symm hm
        · exact e
      have nd' : ((ms.filter (fun m => isFp m.1)).map (fun m => formatName m.1)).Nodup := by
        simp only [List.filter_cons] at nd
        split at nd
        · rw [List.map_cons, List.nodup_cons] at nd
          exact nd.2
        · exact nd
      refine lookup_method hf ms _ nd' h' ?_
      unfold step
      split
      next hf' =>
        split
        next c _ =>
          rw [List.lookup_cons]
          have : (formatName name == formatName m.1) = false := by
            simp only [beq_eq_false_iff_ne, ne_eq]
            intro e
            simp only [List.filter_cons, hf', if_true, List.map_cons, List.nodup_cons] at nd
            exact nd.1 (List.mem_map.mpr ⟨(name, params), List.mem_filter.mpr ⟨h', hf⟩, e⟩)
          rw [this]
          exact hd
        next => exact hd
      next => exact hd

theorem call_method {H : Host} {name : String} {params : Nat} (hd : Distinct H) (hf : isFp name = true) (hm : (name, params) ∈ H.methods)
    (hn : formatName name ≠ formatName "fp_fma") (rm : RM) (const : Bool) (args : List Nat) :
    call H (formatName name) rm const args = match kind name params with
      | none => .error .attributeError
      | some c => c.call H rm const args := by
  have : (closures H).lookup (formatName name) = kind name params := by
    unfold closures
    rw [List.lookup_cons]
    have : (formatName name == formatName "fp_fma") = false := by simpa using hn
    rw [this]
    exact lookup_method hf H.methods [] hd hm rfl
  rw [call, this]
  cases kind name params <;> rfl

theorem branches_ok {rm : RM} (h : rm = .RNE ∨ rm = .RTZ) (f : HostRM → Except Err Out) : branches rm f = f (rmToHost rm) := by
  rcases h with rfl | rfl <;> simp [branches, hostMember, rmToHost]

theorem branches_err {rm : RM} (h1 : rm ≠ .RNE) (h2 : rm ≠ .RTZ) (f : HostRM → Except Err Out) : branches rm f = .error .attributeError := by
  cases rm <;> first | exact absurd rfl h1 | exact absurd rfl h2 | simp [branches, hostMember]

/-- The attribute of the method `fp_<c><cs>`: its first letter is made a capital, the others are made small, and `_fc` is put behind. -/
theorem C50_names (c : Char) (cs : List Char) (n : String) (h : n.toList = 'f' :: 'p' :: '_' :: c :: cs) :
    formatName n = c.toUpper :: (cs.map Char.toLower ++ ['_', 'f', 'c']) ∧ isFp n = true := by
  constructor
  · simp only [formatName, h]; rfl
  · simp only [isFp, h]; rfl

example : formatName "fp_add" = "Add_fc".toList ∧ formatName "fp_is_NaN" = "Is_nan_fc".toList ∧ formatName "fp_round_to_integral" = "Round_to_integral_fc".toList :=
  ⟨(C50_names 'a' "dd".toList _ rfl).1, (C50_names 'i' "s_NaN".toList _ rfl).1, (C50_names 'r' "ound_to_integral".toList _ rfl).1⟩

/-- C50, the part that holds.  For any host library whose method names are told apart by the naming scheme, the attribute of a method with one or two operands that gives a float,
and of a comparison that gives a bit, performs the method on the operands, in order, with the host mode that has the meaning of the requested mode: for RNE and RTZ if the mode is an argument,
and for all modes if it is a constant. -/
theorem C50_calls_partial (H : Host) (hd : Distinct H) (name : String) (params : Nat) (hf : isFp name = true) (hm : (name, params) ∈ H.methods)
    (hn : formatName name ≠ formatName "fp_fma") (rm : RM) (const : Bool) (ok : const = true ∨ rm = .RNE ∨ rm = .RTZ) :
    (∀ a n, params = 1 → Asked H name rm [a] (.fp n) → call H (formatName name) rm const [a] = .ok (.data n)) ∧
    (∀ a b n, params = 2 → ¬ Comparison name → Asked H name rm [a, b] (.fp n) → call H (formatName name) rm const [a, b] = .ok (.data n)) ∧
    (∀ a b v, params = 2 → Comparison name → Asked H name rm [a, b] (.bit v) → call H (formatName name) rm const [a, b] = .ok (.bit v)) := by
  refine ⟨fun a n hp h => ?_, fun a b n hp hc h => ?_, fun a b v hp hc h => ?_⟩ <;> rw [asked_iff] at h <;> rw [call_method hd hf hm hn]
  · subst hp
    cases const with
    | true => simp [kind, Closure.call, constUnary, method, cast, h, asBv]
    | false => simp [kind, Closure.call, unary, branches_ok (ok.resolve_left (by simp)), method, cast, h, asBv]
  · subst hp
    rw [comparison_iff] at hc
    cases const with
    | true => simp [kind, hc, Closure.call, constBinary, method, cast, h, asBv]
    | false => simp [kind, hc, Closure.call, binary, branches_ok (ok.resolve_left (by simp)), method, cast, h, asBv]
  · subst hp
    rw [comparison_iff] at hc
    cases const with
    | true => simp [kind, hc, Closure.call, constCompare, method, cast, h, asIs]
    | false => simp [kind, hc, Closure.call, compare, branches_ok (ok.resolve_left (by simp)), method, cast, h, asIs]

/-- C50 for the fused multiply-add with the mode as an argument. -/
theorem C50_fma_partial (H : Host) (rm : RM) (h : rm = .RNE ∨ rm = .RTZ) (a b c n : Nat) (ha : Asked H "fp_fma" rm [a, b, c] (.fp n)) :
    call H (formatName "fp_fma") rm false [a, b, c] = .ok (.data n) := by
  rw [asked_iff] at ha
  simp [call, closures, Closure.call, fma, branches_ok h, method, cast, ha, asBv]

/-- C50 fails for the other modes: no method of any host library can be called with RDN, RUP or RMM as an argument. -/
theorem C50_violated_modes (H : Host) (hd : Distinct H) (name : String) (params : Nat) (hf : isFp name = true) (hm : (name, params) ∈ H.methods)
    (hn : formatName name ≠ formatName "fp_fma") (rm : RM) (h1 : rm ≠ .RNE) (h2 : rm ≠ .RTZ) (args : List Nat) :
    ∃ e, call H (formatName name) rm false args = .error e := by
  rw [call_method hd hf hm hn]
  cases hk : kind name params with
  | none => exact ⟨_, rfl⟩
  | some c =>
    match c, args with
    | .unary op, [a] => exact ⟨_, by simp only [Closure.call, unary, branches_err h1 h2, Bool.false_eq_true, if_false]; rfl⟩
    | .binary op, [a, b] => exact ⟨_, by simp only [Closure.call, binary, branches_err h1 h2, Bool.false_eq_true, if_false]; rfl⟩
    | .compare op, [a, b] => exact ⟨_, by simp only [Closure.call, compare, branches_err h1 h2, Bool.false_eq_true, if_false]; rfl⟩
    | .fma, [a, b, c] => exact ⟨_, by simp only [Closure.call, fma, branches_err h1 h2, Bool.false_eq_true, if_false]; rfl⟩
    | .unary op, [] => exact ⟨_, rfl⟩
    | .unary op, _ :: _ :: _ => exact ⟨_, rfl⟩
    | .binary op, [] => exact ⟨_, rfl⟩
    | .binary op, [_] => exact ⟨_, rfl⟩
    | .binary op, _ :: _ :: _ :: _ => exact ⟨_, rfl⟩
    | .compare op, [] => exact ⟨_, rfl⟩
    | .compare op, [_] => exact ⟨_, rfl⟩
    | .compare op, _ :: _ :: _ :: _ => exact ⟨_, rfl⟩
    | .fma, [] => exact ⟨_, rfl⟩
    | .fma, [_] => exact ⟨_, rfl⟩
    | .fma, [_, _] => exact ⟨_, rfl⟩
    | .fma, _ :: _ :: _ :: _ :: _ => exact ⟨_, rfl⟩

/-- C50 fails for the fused multiply-add with a constant mode, whatever the mode and the arguments. -/
theorem C50_violated_fma (H : Host) (rm : RM) (args : List Nat) : call H (formatName "fp_fma") rm true args = .error .nameError := by
  have : (closures H).lookup (formatName "fp_fma") = some .fma := by simp [closures]
  rw [call, this]
  match args with
  | [] => rfl
  | [_] => rfl
  | [_, _] => rfl
  | [_, _, _] => rfl
  | _ :: _ :: _ :: _ :: _ => rfl

/-- C50 fails for predicates: a method with one operand that gives a bit (such as `fp_is_zero`) raises AttributeError with every mode that reaches it. -/
theorem C50_violated_predicates (H : Host) (hd : Distinct H) (name : String) (hf : isFp name = true) (hm : (name, 1) ∈ H.methods)
    (hn : formatName name ≠ formatName "fp_fma") (rm : RM) (const : Bool) (a : Nat) (v : Bool) (h : Asked H name rm [a] (.bit v)) :
    call H (formatName name) rm const [a] = .error .attributeError := by
  rw [asked_iff] at h
  rw [call_method hd hf hm hn]
  cases const with
  | true => simp [kind, Closure.call, constUnary, method, cast, h, asBv]
  | false =>
    by_cases h1 : rm = .RNE ∨ rm = .RTZ
    · simp [kind, Closure.call, unary, branches_ok h1, method, cast, h, asBv]
    · have : ¬ rm = .RNE ∧ ¬ rm = .RTZ := by simpa [not_or] using h1
      simp [kind, Closure.call, unary, branches_err this.1 this.2]

/-- A host library with some of the methods of hwtypes; the arithmetic is a stand-in that depends on the mode, the method and the order of the operands. -/
def someHost : Host where
  methods := [("__init_subclass__", 2), ("fp_neg", 1), ("fp_add", 2), ("fp_sub", 2), ("fp_fma", 3), ("fp_lt", 2), ("fp_is_NaN", 1), ("reinterpret_as_bv", 1)]
  run name rm args := match name, args with
    | "fp_lt", [a, b] => .bit (a < b)
    | "fp_is_NaN", [a] => .bit (a = 0)
    | "fp_sub", [a, b] => .fp (a - b)
    | _, args => .fp (args.sum + if rm = .RTP then 1 else 0)

example : Distinct someHost := by unfold Distinct; decide +kernel

example : call someHost "Sub_fc".toList .RTZ false [7, 3] = .ok (.data 4) ∧ call someHost "Add_fc".toList .RUP true [7, 3] = .ok (.data 11) ∧
    call someHost "Lt_fc".toList .RNE false [3, 7] = .ok (.bit true) ∧ call someHost "Add_fc".toList .RUP false [7, 3] = .error .attributeError ∧
    call someHost "Is_nan_fc".toList .RNE true [0] = .error .attributeError :=
  ⟨rfl, rfl, rfl, rfl, rfl⟩

theorem closures_from (H : Host) (attr : List Char) (c : Closure) (h : (closures H).lookup attr = some c) :
    attr = formatName "fp_fma" ∨ ∃ m ∈ H.methods, m.1.toList.take 3 = ['f', 'p', '_'] ∧ attr = formatName m.1 := by
  have key : ∀ (l : List (String × Nat)) (d : List (List Char × Closure)) (e : List Char × Closure),
      e ∈ l.foldl (fun d m => if isFp m.1 then match kind m.1 m.2 with
        | some c => (formatName m.1, c) :: d
        | none => d else d) d → e ∈ d ∨ ∃ m ∈ l, m.1.toList.take 3 = ['f', 'p', '_'] ∧ e.1 = formatName m.1 := by
    intro l
    induction l with
    | nil => intro d e he; exact .inl he
    | cons m l ih =>
      intro d e he
      rw [List.foldl_cons] at he
      rcases ih _ e he with he | ⟨m', h1, h2⟩
      · by_cases hf : isFp m.1 = true
        · rw [if_pos hf] at he
          have hp : m.1.toList.take 3 = ['f', 'p', '_'] := by simpa [isFp] using hf
          cases hk : kind m.1 m.2 with
          | none => rw [hk] at he; exact .inl he
          | some c =>
            rw [hk] at he
            rcases List.mem_cons.mp he with rfl | he
            · exact .inr ⟨m, by simp, hp, rfl⟩
            · exact .inl he
        · rw [if_neg hf] at he; exact .inl he
      · exact .inr ⟨m', by simp [h1], h2⟩
  have hm : (attr, c) ∈ closures H := by
    obtain ⟨l1, l2, hl, _⟩ := List.lookup_eq_some_iff.mp h
    rw [hl]; simp
  rcases List.mem_cons.mp hm with he | he
  · exact .inl (congrArg Prod.fst he)
  · rcases key _ _ _ he with he | he
    · simp at he
    · exact .inr he

/-- C50: the library has no closures but the fused multiply-add and those of the host's methods whose names begin with `fp_`. -/
theorem C50_no_others (H : Host) (attr : List Char) (hf : attr ≠ formatName "fp_fma")
    (hm : ∀ m ∈ H.methods, m.1.toList.take 3 = ['f', 'p', '_'] → attr ≠ formatName m.1) (rm : RM) (const : Bool) (args : List Nat) :
    call H attr rm const args = .error .attributeError := by
  rw [call]
  cases h : (closures H).lookup attr with
  | none => rfl
  | some c =>
    rcases closures_from H attr c h with h | ⟨m, h1, h2, h3⟩
    · exact absurd h hf
    · exact absurd h3 (hm m h1 h2)

/-- A host with a method `reinterpret_as_sbv` and `fp_add`: there is no closure of the first. -/
example : ∀ m ∈ [("reinterpret_as_sbv", 1), ("fp_add", 2)], m.1.toList.take 3 = ['f', 'p', '_'] → formatName "reinterpret_as_sbv" ≠ formatName m.1 := by
  decide +kernel

end Peak.Fl
