import Verif.Lemmas.SimplifyBinding
/-!
# C38: simplifying a binding

`Binds P η t r b`: the leaf binding `b` gives every leaf of the value `r` its bits, when `η` gives the values of the IR paths.  `Groups P η t r b'`:
the entries of `b'` give parts of `r` their values, and the parts together have all leaves of `r`, each once.
`r` is a raw value (Spec/Raw): enum leaves may hold any bits.
-/

namespace Peak
open Peak.Spec

/-- C38, for the types whose values can be put together from fields (`Buildable`), and bindings without `Unbound` entries (there are none when
`build_inputs` makes the call): a leaf binding of a value is simplified to a binding that gives the same value. -/
theorem C38_groups_partial (P : Process) (η : RPath → AV) (t : Ty) (hw : WF t) (hb : Buildable t) (r : RVal) (hr : RHas t r)
    (b : List BEntry) (h : Binds P η t r b) :
    ∃ b', simplifyBinding P.asm t b = .ok b' ∧ Groups P η t r b' := by
  obtain ⟨b', h1, h2, _⟩ := SB.simp_ok P η t r b hw hb hr h
  exact ⟨b', h1, h2⟩

/-- C38: if all entries are values, the result is one entry, for the whole input, whose value has the encoding of `r`. -/
theorem C38_constants_partial (P : Process) (c : Nat) (fs : Fields) (hw : WF (.prod c fs)) (hb : Buildable (.prod c fs)) (r : RVal)
    (hr : RHas (.prod c fs) r) (b : List BEntry) (h : Binds P (fun _ => .bit false) (.prod c fs) r b)
    (hv : ∀ e ∈ b, ∃ x, e.1 = .val x) :
    ∃ x, simplifyBinding P.asm (.prod c fs) b = .ok [(.val x, [])] ∧
      AV.new P.asm (.prod c fs) (.asm x) = .ok (.adt (.prod c fs) (BV.ofNat (width (.prod c fs)) (rawCode (.prod c fs) r))) := by
  obtain ⟨b', h1, h2, h3, h4⟩ := SB.simp_ok P _ _ r b hw hb hr h
  obtain ⟨x, rfl⟩ := h4 (fun e he => by obtain ⟨x, hx⟩ := hv e he; rw [hx]; rfl)
  refine ⟨x, h1, ?_⟩
  obtain ⟨u, s, g1, y, g2, g3⟩ := h2.1 _ List.mem_cons_self
  rw [SB.rawAt_nil] at g1
  cases g1
  cases g2
  exact g3

mutual
/-- The raw value of a value has the value's encoding, so the theorems above apply to the values of a type. -/
theorem C38_rawOf : ∀ (t : Ty) (v : Val), WF t → t.Has v → RHas t (rawOf t v) ∧ rawCode t (rawOf t v) = encode t v
  | .bv c w, .bits b, hw, hv => ⟨(encode_spec _ hw _ hv).1, rfl⟩
  | .bit c, .bit b, hw, hv => ⟨(encode_spec _ hw _ hv).1, rfl⟩
  | .enum c ms, .enum e, hw, hv => ⟨(encode_spec _ hw _ hv).1, rfl⟩
  | .prod c fs, .prod vs, hw, hv => by
    simp only [rawOf, RHas, rawCode, encode]
    exact rawOfAll_spec fs vs hw.2 hv
  | .sum c fs, .sum k v, hw, hv => by
    obtain ⟨i, t, hi, hvt⟩ := (hasAt_iff hw.2.1 k v).1 hv
    obtain ⟨h1, h2⟩ := rawOfAt_spec fs k v t hw.2.2 (lookup_of_get hw.2.1 hi) hvt
    simp only [rawOf, RHas, rawCode, encode]
    exact ⟨h1, by rw [h2]⟩
  | .bv _ _, .bit _, _, h => by simp [Ty.Has] at h
  | .bv _ _, .enum _, _, h => by simp [Ty.Has] at h
  | .bv _ _, .prod _, _, h => by simp [Ty.Has] at h
  | .bv _ _, .sum _ _, _, h => by simp [Ty.Has] at h
  | .bit _, .bits _, _, h => by simp [Ty.Has] at h
  | .bit _, .enum _, _, h => by simp [Ty.Has] at h
  | .bit _, .prod _, _, h => by simp [Ty.Has] at h
  | .bit _, .sum _ _, _, h => by simp [Ty.Has] at h
  | .enum _ _, .bits _, _, h => by simp [Ty.Has] at h
  | .enum _ _, .bit _, _, h => by simp [Ty.Has] at h
  | .enum _ _, .prod _, _, h => by simp [Ty.Has] at h
  | .enum _ _, .sum _ _, _, h => by simp [Ty.Has] at h
  | .prod _ _, .bits _, _, h => by simp [Ty.Has] at h
  | .prod _ _, .bit _, _, h => by simp [Ty.Has] at h
  | .prod _ _, .enum _, _, h => by simp [Ty.Has] at h
  | .prod _ _, .sum _ _, _, h => by simp [Ty.Has] at h
  | .sum _ _, .bits _, _, h => by simp [Ty.Has] at h
  | .sum _ _, .bit _, _, h => by simp [Ty.Has] at h
  | .sum _ _, .enum _, _, h => by simp [Ty.Has] at h
  | .sum _ _, .prod _, _, h => by simp [Ty.Has] at h
theorem rawOfAll_spec : ∀ (fs : Fields) (vs : List Val), WFs fs → fs.HasAll vs →
    RHasAll fs (rawOfAll fs vs) ∧ rawCodeAll fs (rawOfAll fs vs) = encodeAll fs vs
  | .nil, [], _, _ => ⟨trivial, rfl⟩
  | .cons k t fs, v :: vs, hw, hv => by
    obtain ⟨h1, h2⟩ := C38_rawOf t v hw.1 hv.1
    obtain ⟨h3, h4⟩ := rawOfAll_spec fs vs hw.2 hv.2
    simp only [rawOfAll, RHasAll, rawCodeAll, encodeAll]
    exact ⟨⟨h1, h3⟩, by rw [h2, h4]⟩
  | .nil, _ :: _, _, h => by simp [Fields.HasAll] at h
  | .cons .., [], _, h => by simp [Fields.HasAll] at h
theorem rawOfAt_spec : ∀ (fs : Fields) (k : Key) (v : Val) (t : Ty), WFs fs → fs.toList.lookup k = some t → t.Has v →
    RHasAt fs k (rawOfAt fs k v) ∧ rawCodeAt fs k (rawOfAt fs k v) = encodeAt fs k v
  | .nil, _, _, _, _, h, _ => by simp [Fields.toList] at h
  | .cons k' t' fs, k, v, t, hw, h, hv => by
    rw [Fields.toList, List.lookup_cons] at h
    by_cases hk : k = k'
    · subst hk
      rw [beq_self_eq_true] at h
      cases h
      simpa only [rawOfAt, RHasAt, rawCodeAt, encodeAt, if_true] using C38_rawOf t' v hw.1 hv
    · rw [beq_eq_false_iff_ne.mpr hk] at h
      simpa only [rawOfAt, RHasAt, rawCodeAt, encodeAt, if_neg hk] using rawOfAt_spec fs k v t hw.2 h hv
end

/-- An input with a 2-bit field and a union of a bit and a pair of 1-bit and 3-bit vectors, holding the pair. -/
def exBindTy : Ty :=
  .prod 0 (.cons 0 (.bv 0 2) (.cons 1 (.sum 1 (.cons 2 (.bit 0) (.cons 3 (.prod 2 (.cons 4 (.bv 0 1) (.cons 5 (.bv 0 3) .nil))) .nil))) .nil))
def exBindRaw : RVal := .prod [.leaf 3, .sum 3 (.prod [.leaf 1, .leaf 6])]

/-- A binding of it, out of order, with one IR path. -/
def exBinding : List BEntry :=
  [(.val (.bits (BV.ofNat 3 6)), [1, 3, 5]), (.path [7], [0]), (.val (.bits (BV.ofNat 1 1)), [1, 3, 4])]

example : WF exBindTy ∧ Buildable exBindTy ∧ RHas exBindTy exBindRaw ∧
    Binds ⟨fun _ => []⟩ (fun _ => .bits (BV.ofNat 2 3)) exBindTy exBindRaw exBinding := by
  refine ⟨by simp [exBindTy, WF, WFs, Fields.toList], by simp [exBindTy, Buildable, Buildables, Fields.toList, width, sumWidths, maxWidth, tagBits],
    by simp [exBindTy, exBindRaw, RHas, RHasAll, RHasAt, width], ?_⟩
  refine ⟨[([1, 3, 5], .bv 0 3, 6), ([0], .bv 0 2, 3), ([1, 3, 4], .bv 0 1, 1)], ?_, ?_⟩
  · simp only [exBindTy, exBindRaw, rawLeaves, rawLeavesAll, rawLeavesAt]
    decide
  · exact .cons ⟨rfl, _, rfl, rfl⟩ (.cons ⟨rfl, _, rfl, rfl⟩ (.cons ⟨rfl, _, rfl, rfl⟩ .nil))

/-- The code violates C38 when `SimplifyBinding` is given an `Unbound` leaf: an unbound leaf of a union is not kept unbound, the call raises. -/
theorem C38_violated :
    ¬ ∀ (P : Process) (c : Nat) (fs : Fields) (k : Key), WF (.sum c fs) → Buildable (.sum c fs) → (k, Ty.bv 0 8) ∈ fs.toList →
      ∃ b', simplifyBinding P.asm (.sum c fs) [(.unbound, [k])] = .ok b' := by
  intro h
  obtain ⟨b', hb'⟩ := h ⟨fun _ => []⟩ 0 (.cons 0 (.bv 0 8) (.cons 1 (.bv 0 4) .nil)) 0 (by simp [WF, WFs, Fields.toList])
    (by simp [Buildable, Buildables, Fields.toList, width]) (by simp [Fields.toList])
  have h2 : (match simplifyBinding (Process.asm ⟨fun _ => []⟩) (.sum 0 (.cons 0 (.bv 0 8) (.cons 1 (.bv 0 4) .nil))) [(.unbound, [0])] with
    | .ok _ => true | .error _ => false) = false := by decide +kernel
  rw [hb'] at h2
  cases h2

end Peak
