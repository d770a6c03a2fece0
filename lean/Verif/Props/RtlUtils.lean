import Verif.Spec.RtlUtils
import Verif.Props.AssembledADT
/-!
# C79: circuits wrapped with an assembled instruction port
-/

namespace Peak.Rtl
open Peak.Spec

theorem mem_wires {s d : Side} {lo lo' n : Nat} {w : Wire} : w ∈ wires s lo d lo' n ↔ ∃ j < n, w = ⟨s, lo + j, d, lo' + j⟩ := by
  simp only [wires, List.mem_map, List.mem_range]
  exact ⟨fun ⟨j, h, e⟩ => ⟨j, h, e.symm⟩, fun ⟨j, h, e⟩ => ⟨j, h, e.symm⟩⟩

theorem wires_append (s d : Side) (lo n m : Nat) : wires s lo d lo n ++ wires s (lo + n) d (lo + n) m = wires s lo d lo (n + m) := by
  simp only [wires, List.range_add, List.map_append, List.map_map]
  congr 1
  apply List.map_congr_left
  intro j _
  simp [Nat.add_assoc]

theorem straight_wires {s d : Side} (n : Nat) (h : s ≠ d) : Straight (wires s 0 d 0 n) d n := by
  refine ⟨?_, fun i hi => ⟨⟨s, i, d, i⟩, mem_wires.mpr ⟨i, hi, by simp⟩, rfl, rfl, h, rfl, ?_⟩, ?_⟩
  · unfold wires
    refine List.Pairwise.map _ ?_ List.nodup_range
    intro a b hab e
    simp only [Wire.mk.injEq] at e
    omega
  · intro w hw _ e
    obtain ⟨j, hj, rfl⟩ := mem_wires.mp hw
    simp only at e
    simp [← e]
  · intro w hw
    obtain ⟨j, hj, rfl⟩ := mem_wires.mp hw
    exact ⟨rfl, by simpa using hj⟩

theorem layoutFrom_fst : ∀ (fs : Fields) (base : Nat), (layoutFrom base fs).map (·.1) = fs.toList.map (·.1)
  | .nil, _ => rfl
  | .cons k t fs, base => by simp [layoutFrom, Fields.toList, layoutFrom_fst fs]

theorem lookup_nodup {β : Type} : ∀ {l : List (Key × β)} {k : Key} {b : β}, (l.map (·.1)).Nodup → (k, b) ∈ l → l.lookup k = some b
  | [], _, _, _, h => by simp at h
  | (a, c) :: l, k, b, hn, h => by
    simp only [List.map_cons, List.nodup_cons] at hn
    rcases List.mem_cons.mp h with h' | h'
    · cases h'; simp [List.lookup]
    · have : k ≠ a := by
        rintro rfl
        exact hn.1 (List.mem_map.mpr ⟨(k, b), h', rfl⟩)
      have hb : (k == a) = false := by simpa using this
      simp only [List.lookup, hb]
      exact lookup_nodup hn.2 h'

theorem wireFields_from (mine : List (Key × (Nat × Nat))) (hn : (mine.map (·.1)).Nodup) : ∀ (fs : Fields) (base : Nat), (∀ e ∈ layoutFrom base fs, e ∈ mine) →
    wireFields .product mine (layoutFrom base fs) = .ok (wires .io base .pe base (sumWidths fs))
  | .nil, base, _ => by simp [layoutFrom, wireFields, sumWidths, wires]
  | .cons k t fs, base, h => by
    have h1 := lookup_nodup hn (h (k, (base, base + width t)) (by simp [layoutFrom]))
    have ih := wireFields_from mine hn fs (base + width t) (fun e he => h e (by simp [layoutFrom, he]))
    simp only [layoutFrom, wireFields, if_true, h1, ih, Nat.add_sub_cancel_left, wires_append, sumWidths]

/-- C79: for every product type and any two assemblers of it (in whatever processes: the one whose layout is passed and the one of the PE's class), the
wrapper's port has the width of the instruction and drives each bit of the PE's instruction port, once, with the bit of the same number: the PE gets
the word on the wrapper's port.  All other ports are passed through. -/
theorem C79_wrapped (P Q : Process) (c : Nat) (fs : Fields) (hw : WF (.prod c fs)) (p : Port) (hp : p.isInst = true → p.width = width (.prod c fs)) :
    ∃ o o' ws, P.asm (.prod c fs) = .ok o ∧ Q.asm (.prod c fs) = .ok o' ∧ wirePort .product o'.layout o.layout p = .ok ws ∧
      (wrapperPort o.width p).1 = p.width ∧
      Straight ws (if (wrapperPort o.width p).2 then .io else .pe) p.width := by
  obtain ⟨o, ho, hg⟩ := P.good hw
  obtain ⟨o', ho', hg'⟩ := Q.good hw
  have hl : o.layout = layoutFrom 0 fs := hg.layout
  have hl' : o'.layout = layoutFrom 0 fs := hg'.layout
  have hwf : wireFields .product o'.layout o.layout = .ok (wires .io 0 .pe 0 (sumWidths fs)) := by
    rw [hl, hl']
    exact wireFields_from _ (by rw [layoutFrom_fst]; exact hw.1) fs 0 (fun _ h => h)
  obtain ⟨i, out, n⟩ := p
  cases i with
  | true =>
    have hn : n = sumWidths fs := by simpa [width] using hp rfl
    subst hn
    exact ⟨o, o', _, ho, ho', by simp only [wirePort, if_true]; exact hwf, by simp [wrapperPort, hg.width, width], by
      simpa [wrapperPort] using straight_wires (sumWidths fs) (by decide)⟩
  | false =>
    cases out with
    | true => exact ⟨o, o', _, ho, ho', by simp only [wirePort, Bool.false_eq_true, if_false, if_true]; rfl, rfl, by simpa [wrapperPort] using straight_wires n (by decide)⟩
    | false => exact ⟨o, o', _, ho, ho', by simp only [wirePort, Bool.false_eq_true, if_false]; rfl, rfl, by simpa [wrapperPort] using straight_wires n (by decide)⟩

/-- C79: what an assembler other than the PE's own is used for: each field of the PE's instruction gets the bits that the layout passed gives to the field of the
same name, for any two layouts with the same names and widths. -/
theorem C79_by_name (mine layout : List (Key × (Nat × Nat))) (ws : List Wire) (h : wireFields .product mine layout = .ok ws) (k : Key) (lo hi : Nat)
    (hk : (k, (lo, hi)) ∈ layout) :
    ∃ lo' hi', mine.lookup k = some (lo', hi') ∧ hi' - lo' = hi - lo ∧ ∀ j < hi - lo, ⟨.io, lo + j, .pe, lo' + j⟩ ∈ ws := by
  induction layout generalizing ws with
  | nil => simp at hk
  | cons e rest ih =>
    obtain ⟨k0, a, b⟩ := e
    simp only [wireFields, if_true] at h
    split at h
    · cases h
    · next lo' hi' hm =>
      split at h
      · next hwd =>
        split at h
        · cases h
        · next ws' hws =>
          cases h
          rcases List.mem_cons.mp hk with e | hk'
          · cases e
            exact ⟨lo', hi', hm, hwd.symm, fun j hj => List.mem_append_left _ (mem_wires.mpr ⟨j, hj, rfl⟩)⟩
          · obtain ⟨x, y, h1, h2, h3⟩ := ih ws' hws hk'
            exact ⟨x, y, h1, h2, fun j hj => List.mem_append_right _ (h3 j hj)⟩
      · cases h

/-- C79 fails for the other instruction types: when the layout has an entry, whose key is a member, a position or a type, the call raises TypeError; when it has none,
for bit vectors, the instruction port of the PE is left unconnected. -/
theorem C79_violated_kinds (mine layout : List (Key × (Nat × Nat))) (p : Port) (hp : p.isInst = true) :
    (layout ≠ [] → wirePort .other mine layout p = .error .typeError) ∧ (layout = [] → wirePort .other mine layout p = .ok []) := by
  simp only [wirePort, hp, if_true]
  constructor
  · intro h
    cases layout with
    | nil => exact absurd rfl h
    | cons e rest => simp [wireFields]
  · rintro rfl
    rfl

/-! ### The hypotheses are met -/

/-- The instruction of examples/demo_pes/pe6: two operations and a bit. -/
example (P : Process) : ∃ o ws, P.asm (.prod 0 (.cons 0 (.enum 0 [.lit 0, .lit 1, .lit 2]) (.cons 1 (.enum 0 [.lit 0, .lit 1, .lit 2]) (.cons 2 (.bit 0) .nil)))) = .ok o ∧
    wirePort .product o.layout o.layout ⟨true, false, 5⟩ = .ok ws ∧ Straight ws .pe 5 := by
  obtain ⟨o, o', ws, h1, h2, h3, -, h5⟩ := C79_wrapped P P 0 (.cons 0 (.enum 0 [.lit 0, .lit 1, .lit 2]) (.cons 1 (.enum 0 [.lit 0, .lit 1, .lit 2]) (.cons 2 (.bit 0) .nil)))
    (by simp [WF, WFs, Fields.toList, autos]) ⟨true, false, 5⟩ (fun _ => by decide +kernel)
  rw [h1] at h2
  cases h2
  exact ⟨o, ws, h1, h3, by simpa [wrapperPort] using h5⟩

/-- Another assembler's layout, with the fields the other way round. -/
example : ∃ lo' hi', ([(0, (0, 2)), (1, (2, 3))] : List (Key × (Nat × Nat))).lookup 0 = some (lo', hi') ∧ hi' - lo' = 3 - 1 ∧
    ∀ j < 3 - 1, (⟨.io, 1 + j, .pe, lo' + j⟩ : Wire) ∈ [⟨.io, 0, .pe, 2⟩, ⟨.io, 1, .pe, 0⟩, ⟨.io, 2, .pe, 1⟩] :=
  C79_by_name [(0, (0, 2)), (1, (2, 3))] [(1, (0, 1)), (0, (1, 3))] _ (by decide) 0 1 3 (by decide)

/-- An enum of two members used as an instruction. -/
example : wirePort .other [(0, (0, 1)), (1, (0, 1))] [(0, (0, 1)), (1, (0, 1))] ⟨true, false, 1⟩ = .error .typeError :=
  (C79_violated_kinds _ _ ⟨true, false, 1⟩ rfl).1 (by simp)

end Peak.Rtl
