import Verif.Lemmas.Shapes
import Verif.Model.IRMapper
/-!
# The number of forms of a value, and of the rows of the mapper
-/

namespace Peak.ValF
open Peak Peak.Spec

theorem exMap_length {α β : Type} {f : α → Except Err β} {l : List α} {l' : List β} (h : exMap f l = .ok l') : l'.length = l.length :=
  (exMap_forall₂ h).length_eq.symm

theorem product_length {α β : Type} : ∀ {L : List (List α)} {M : List (List β)}, L.map List.length = M.map List.length →
    (pyProduct L).length = (pyProduct M).length
  | [], [], _ => rfl
  | l :: L, m :: M, h => by
    simp only [List.map_cons, List.cons.injEq] at h
    simp only [pyProduct, List.length_flatMap, List.length_map]
    rw [List.map_const', List.map_const', product_length h.2, h.1]
  | [], _ :: _, h => by simp at h
  | _ :: _, [], h => by simp at h

mutual
/-- A value of a type has as many forms as the type has shapes. -/
theorem val_count (A : Ty → Except Err AsmObj) (tu : Nat → Bool) : ∀ (t : Ty) (p : RPath) (x : AV) (r : FormsRes), valForms A tu t p x = .ok r →
    r.forms.length = (RF.skels t).length
  | .bv c w, p, x, r, h => by
    simp only [valForms] at h
    split at h
    · cases h; rfl
    · cases h
  | .bit c, p, x, r, h => by
    simp only [valForms] at h
    split at h
    · cases h; rfl
    · cases h
  | .enum c ms, p, x, r, h => by
    simp only [valForms] at h
    split at h
    · cases h; rfl
    · cases h
  | .prod c fs, p, x, r, h => by
    simp only [valForms] at h
    split at h
    · split at h
      · cases h
      · next rows hrows =>
        split at h
        · cases h
        · split at h
          · cases h
          · next forms hf =>
            cases h
            simp only [RF.skels, List.length_map, exMap_length hf]
            apply product_length
            rw [List.map_map]
            exact vals_count A tu fs p x rows hrows
    · cases h
  | .sum c fs, p, x, r, h => by
    simp only [valForms] at h
    split at h
    · split at h
      · cases h
      · split at h
        · cases h
        · next rows hrows =>
          split at h
          · cases h
          · cases h
            simp only [RF.skels]
            exact valopts_count A tu _ _ _ fs p x rows hrows
    · cases h
theorem vals_count (A : Ty → Except Err AsmObj) (tu : Nat → Bool) : ∀ (fs : Fields) (p : RPath) (x : AV) (rows : List FormsRes), valFields A tu x fs p = .ok rows →
    rows.map (List.length ∘ fun r => r.forms) = (RF.skelsF fs).map List.length
  | .nil, p, x, rows, h => by cases h; rfl
  | .cons k t fs, p, x, rows, h => by
    simp only [valFields] at h
    split at h
    · cases h
    · split at h
      · cases h
      · next r hr =>
        split at h
        · cases h
        · next rs hrs =>
          cases h
          simp only [List.map_cons, RF.skelsF, Function.comp_apply, val_count A tu t _ _ r hr, vals_count A tu fs p x rs hrs]
theorem valopts_count (A : Ty → Except Err AsmObj) (tu : Nat → Bool) (u : Ty) (tagged : Bool) (tag : BV) : ∀ (fs : Fields) (p : RPath) (x : AV)
    (rows : List (Key × FormsRes × Bool)), valOptions A tu x u tagged tag fs p = .ok rows →
    (rows.flatMap (fun r => r.2.1.forms)).length = (RF.skelsO fs).length
  | .nil, p, x, rows, h => by cases h; rfl
  | .cons k t fs, p, x, rows, h => by
    simp only [valOptions] at h
    split at h
    · cases h
    · split at h
      · cases h
      · split at h
        · cases h
        · next r hr =>
          split at h
          · cases h
          · split at h
            · cases h
            · split at h
              · cases h
              · next rs hrs =>
                cases h
                simp only [List.flatMap_cons, List.length_append, List.length_map, RF.skelsO, val_count A tu t _ _ r hr,
                  valopts_count A tu u tagged tag fs p x rs hrs]
end

theorem parse_count {A : Ty → Except Err AsmObj} {tu : Nat → Bool} {t : Ty} {outs : List AV} {r : FormsRes} (h : parseForms A tu t outs = .ok r) :
    r.forms.length = (RF.skels t).length := by
  simp only [parseForms] at h
  split at h
  · cases h
  · exact val_count A tu t _ _ r h

theorem row_count {B K : Type} {A : Ty → Except Err AsmObj} {obj : PeakObj B K} {cs : List RPath} {bb : List (B × List BV)} {f : SForm} {row : MRow}
    (h : mapRow A obj cs bb f = .ok row) : row.nOut = (RF.skels obj.outT).length := by
  simp only [mapRow] at h
  split at h
  · cases h
  · split at h
    · cases h
    · split at h
      · cases h
      · next hp =>
        cases h
        exact parse_count hp

theorem mapper_inv {B K : Type} {A : Ty → Except Err AsmObj} {obj : PeakObj B K} {cs : List RPath} {ρ τ : RPath → Nat} {β : B → Nat → Nat} {m : SMap}
    (h : smtMapper A obj cs ρ τ β = .ok m) :
    smtForms A ρ τ obj.inT [] = .ok m.res ∧ List.Forall₂ (fun f row => mapRow A obj cs (obj.bbOuts β) f = .ok row) m.res.forms m.rows ∧
      m.nOut = (RF.skels obj.outT).length := by
  simp only [smtMapper] at h
  split at h
  · cases h
  · next res hres =>
    split at h
    · cases h
    · next rows hrows =>
      have hF := RF.exMap_forall₂ hrows
      split at h
      · cases h
      · next row rows' =>
        split at h
        · cases h
          refine ⟨hres, hF, ?_⟩
          obtain ⟨f, _, hf⟩ := SF.mem_right_of_forall₂ hF row List.mem_cons_self
          exact row_count hf
        · cases h

/-- The rows are enough: the assertion on the number of output forms holds. -/
theorem mapper_of_rows {B K : Type} {A : Ty → Except Err AsmObj} {obj : PeakObj B K} {cs : List RPath} {ρ τ : RPath → Nat} {β : B → Nat → Nat}
    {res : FormsRes} {rows : List MRow} (h1 : smtForms A ρ τ obj.inT [] = .ok res) (h2 : exMap (mapRow A obj cs (obj.bbOuts β)) res.forms = .ok rows)
    (hne : res.forms ≠ []) : smtMapper A obj cs ρ τ β = .ok ⟨res, rows, (RF.skels obj.outT).length⟩ := by
  have hF := RF.exMap_forall₂ h2
  have hn : ∀ row ∈ rows, row.nOut = (RF.skels obj.outT).length := by
    intro row hrow
    obtain ⟨f, _, hf⟩ := SF.mem_right_of_forall₂ hF row hrow
    exact row_count hf
  simp only [smtMapper, h1, h2]
  cases rows with
  | nil => exact absurd (List.forall₂_nil_right_iff.mp hF) hne
  | cons row rows =>
    have h0 := hn row List.mem_cons_self
    have : ((row :: rows).all fun r => r.nOut == row.nOut) = true := by
      simp only [List.all_eq_true, beq_iff_eq]
      intro r hr
      rw [hn r hr, h0]
    simp only
    rw [if_pos this, h0]

end Peak.ValF
