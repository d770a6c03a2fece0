import Verif.Model.OldMapper
/-!
# Specification of the mappings of `gen_mapping`

A mapping names an instruction, the PE output that carries the result, and for each input of the CoreIR module the PE input it goes to; the
PE inputs it does not name get 0.
-/

namespace Peak

/-- The value a mapping gives to the PE input `k` when the CoreIR inputs have the values `ρ`. -/
def mappedInput (inputMap : List (String × String)) (ρ : String → Nat) (k : String) : Nat :=
  match inputMap.find? (fun e => e.2 == k && e.1 != "0") with
  | some e => ρ e.1
  | none => 0

/-- The values fit the sizes of the CoreIR inputs. -/
def CoreFits (core : List (String × Nat)) (ρ : String → Nat) : Prop := ∀ e ∈ core, ρ e.1 < 2 ^ e.2

/-- The model of the CoreIR module as a function of its inputs.  (Python has no parameter named `in`, so the model's parameter is `in_`.) -/
def coreValue {St BI SI : Type} (pb : OldPb St BI SI) (ρ : String → Nat) : Nat :=
  pb.coreFn (fun n => ρ (if n = "in_" then "in" else n))

/-- On a new PE, the instruction with these inputs gives the CoreIR module's value on the output in position `idx`, whatever the inputs. -/
def Implements {St BI SI : Type} (pb : OldPb St BI SI) (inst : SI) (inputs : (String → Nat) → String → Nat) (idx : Nat) : Prop :=
  ∀ ρ, CoreFits pb.coreIn ρ → (pb.call pb.init inst (inputs ρ)).2[idx]? = some (coreValue pb ρ)

/-- The solver decides each query about the values of the CoreIR inputs (in the names of the variables it was given). -/
def SolverCorrect {St BI SI : Type} (pb : OldPb St BI SI) (unsat : ((String → Nat) → Prop) → Bool) : Prop :=
  ∀ q, unsat q = true ↔ ∀ ρ, CoreFits (pb.coreIn.map (fun e => (if e.1 = "in" then "in_" else e.1, e.2))) ρ → ¬ q ρ

/-- The names of the CoreIR inputs are distinct, and none is the name `in_` that stands for `in`, nor the name `0`. -/
structure CoreNames (core : List (String × Nat)) : Prop where
  nodup : (core.map (·.1)).Nodup
  noIn : "in_" ∉ core.map (·.1)
  noZero : "0" ∉ core.map (·.1)

/-- The PE's outputs do not depend on its state. -/
def Stateless {St BI SI : Type} (pb : OldPb St BI SI) : Prop :=
  ∀ s i e, (pb.call s i e).2 = (pb.call pb.init i e).2

/-- The CoreIR model only reads its parameters. -/
def ReadsParams {St BI SI : Type} (pb : OldPb St BI SI) : Prop :=
  ∀ ρ ρ', (∀ e ∈ pb.coreIn, ρ (inName e.1) = ρ' (inName e.1)) → pb.coreFn ρ = pb.coreFn ρ'

/-- The values the assignment `f` (of CoreIR inputs to PE inputs) gives to the PE's inputs: 0 to those it leaves out. -/
def givenInput {St BI SI : Type} (pb : OldPb St BI SI) (f : String → Option String) (ρ : String → Nat) (k : String) : Nat :=
  if k ∈ (filterIO pb.peakInputs).map (·.1) then (match f k with | some c => ρ c | none => 0) else 0

end Peak
