import Verif.Model.Basic
/-!
# `peak/mapper/mapper.py:859-924`: exists-forall solving

Solver variables are numbers with a sort; a value of a variable is a natural number below the number of elements of its sort.  A formula is
given by its free variables and its truth value under an assignment.  The SMT solver is a parameter (an oracle): see
`SolverOk` in the properties file for the contract that is assumed of it.
-/

namespace Peak

/-- A pysmt sort: `BVType(width)` or `BOOL` (pysmt, not in /repo; used at mapper.py:859-872). -/
inductive Srt
  | bv (width : Nat)
  | bool
  deriving DecidableEq

/-- Number of values of the sort (used at mapper.py:866-887). -/
def Srt.card : Srt → Nat
  | .bv w => 2 ^ w
  | .bool => 2

/-- `_int_to_pysmt` (mapper.py:859-864): the value of the constant.  For a bit-vector sort the code reduces modulo `sort.width`. -/
def intToPysmt (x : Int) : Srt → Nat
  | .bv w => (x % w).toNat
  | .bool => if x ≠ 0 then 1 else 0

/-- An assignment of values to all variables (pysmt's models; used at mapper.py:893-924). -/
abbrev Asg := Nat → Nat

/-- A pysmt formula: its free variables and its value (pysmt; used at mapper.py:893-924). -/
structure Phi where
  fv : List Nat
  eval : Asg → Bool

/-- The effect of a substitution of constants on an assignment (pysmt's `substitute`; used at mapper.py:893-924). -/
def override (σ : List (Nat × Nat)) (ρ : Asg) : Asg := fun v => (σ.lookup v).getD (ρ v)

/-- `phi.substitute(σ).simplify()` (mapper.py:902, 914, 922), as a condition. -/
def Phi.subst (phi : Phi) (σ : List (Nat × Nat)) : Asg → Bool := fun ρ => phi.eval (override σ ρ)

/-- `_gen_initial` (mapper.py:874-887); `rand i v` is the number drawn by `random.randrange` for vector `i`, variable `v`
(mapper.py:866-872). -/
def genInitial (sort : Nat → Srt) (y : List Nat) (num : Int) (rand : Nat → Nat → Nat) : List (List (Nat × Nat)) :=
  if num < 0 then []
  else
    [y.map (fun v => (v, intToPysmt 0 (sort v))), y.map (fun v => (v, intToPysmt 1 (sort v))),
     y.map (fun v => (v, intToPysmt (-1) (sort v)))] ++
    (List.range num.toNat).map (fun i => y.map (fun v => (v, intToPysmt (rand i v) (sort v))))

/-- What `external_loop_solve` did: returned the rule read off the solver's model, returned `None`, raised `LoopException`, or is still
running (only when stopped by the model's step bound) (mapper.py:893-924). -/
inductive EfOut
  | rule (model : Asg)
  | unsat
  | loopException
  | running

/-- The loop (mapper.py:905-924).  `solve k` answers the `k`-th `solver.solve()`, `refute k` the `k`-th `get_model`.
The second component lists the candidates (models) seen. -/
def efLoop (phi : Phi) (x y : List Nat) (maxloops : Option Int)
    (solve : Nat → List (Asg → Bool) → Option Asg) (refute : Nat → (Asg → Bool) → Option Asg) :
    Nat → Nat → List (Asg → Bool) → EfOut × List Asg
  | 0, _, _ => (.running, [])
  | fuel + 1, loops, asserts =>
    if maxloops.all (fun m => (loops : Int) ≤ m) then                                    -- 906
      match solve loops asserts with                                                     -- 908
      | none => (.unsat, [])                                                             -- 910-911
      | some ρ =>
        match refute loops (fun ρ' => !(phi.subst (x.map (fun v => (v, ρ v))) ρ')) with  -- 913-915
        | none => (.rule ρ, [ρ])                                                         -- 917-919
        | some μ =>
          let r := efLoop phi x y maxloops solve refute fuel (loops + 1)
            (asserts ++ [phi.subst (y.map (fun v => (v, μ v)))])                         -- 921-923
          (r.1, ρ :: r.2)
    else (.loopException, [])                                                            -- 924

/-- `external_loop_solve` (mapper.py:893-924), run for at most `fuel` iterations. -/
def externalLoopSolve (sort : Nat → Srt) (phi : Phi) (y : List Nat) (maxloops : Option Int) (numInit : Int) (rand : Nat → Nat → Nat)
    (solve : Nat → List (Asg → Bool) → Option Asg) (refute : Nat → (Asg → Bool) → Option Asg) (fuel : Nat) : EfOut × List Asg :=
  let x := phi.fv.filter (fun v => v ∉ y)                                                -- 896
  efLoop phi x y maxloops solve refute fuel 0
    ((fun _ => true) :: (genInitial sort y numInit rand).map phi.subst)                  -- 900-903

end Peak
