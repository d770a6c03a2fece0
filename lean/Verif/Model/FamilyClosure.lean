import Verif.Model.Basic
/-!
# family_closure (peak/features.py:99-143) and equality of families (peak/family.py)

An argument of a family closure is a family or some other hashable value (a number here).  The wrapped function is an oracle: each
run either returns a fresh object, numbered by the run, or raises.  Recursive calls of a closure from inside its own function are not
modelled.
-/

namespace Peak

/-- The classes of families: the four shipped ones (family.py:256, 318, 322, 354) and a subclass of another family class that does not
define its own equality, as in tests/test_fc.py:7-10 and examples/riscv/family.py. -/
inductive FamCls
  | py | pyx | smt | magma
  | sub (parent : FamCls) (n : Nat)
deriving DecidableEq, Repr

/-- `issubclass(c, d)` among them; PyXFamily derives from PyFamily (family.py:318). -/
def FamCls.isSub : FamCls → FamCls → Bool
  | .pyx, d => d == .pyx || d == .py
  | .sub p n, d => d == .sub p n || p.isSub d
  | c, d => d == c

/-- Whether equality dispatches to `_AsmFamily` (family.py:115-124, 288-289) or to `AbstractFamily` (family.py:37-51). -/
def FamCls.isAsm : FamCls → Bool
  | .py => false
  | .pyx | .smt | .magma => true
  | .sub p _ => p.isAsm

/-- A family instance; the last three fields are only used by `_AsmFamily` (family.py:98-102, 295-302). -/
structure Fam where
  cls : FamCls
  asm : Nat := 0
  aadt : Nat := 0
  extras : List Nat := []
deriving DecidableEq, Repr

/-- `a.__eq__(b)` (family.py:37-41, 115-121); `none` is NotImplemented. -/
def Fam.eqMethod (a b : Fam) : Option Bool :=
  if b.cls.isSub a.cls then
    if a.cls.isAsm then some (a.asm == b.asm && a.aadt == b.aadt && a.extras == b.extras) else some true
  else none

/-- `a == b`: Python tries the reflected method first when the right operand's class is a proper subclass, and falls back to
identity (Python's `==` on the methods of family.py:37-48, 115-121, 148-152). -/
def Fam.eq (a b : Fam) : Bool :=
  let first := if b.cls ≠ a.cls ∧ b.cls.isSub a.cls = true then b.eqMethod a else a.eqMethod b
  let second := if b.cls ≠ a.cls ∧ b.cls.isSub a.cls = true then a.eqMethod b else b.eqMethod a
  match first with
  | some r => r
  | none => match second with
    | some r => r
    | none => false

/-- The hash functions of the assembler class, of the ADT class and of the tuple of extra arguments: unspecified (family.py:123-124). -/
structure Hashes where
  asm : Nat → Int
  aadt : Nat → Int
  extras : List Nat → Int

/-- `hash(a)` (family.py:50-51, 123-124). -/
def Fam.hash (h : Hashes) (a : Fam) : Int :=
  if a.cls.isAsm then 2 * h.asm a.asm + 3 * h.aadt a.aadt + 5 * h.extras a.extras else 0

/-- An argument (features.py:137-143). -/
inductive FcArg
  | fam (f : Fam)
  | val (n : Nat)
deriving DecidableEq, Repr

/-- Two arguments are interchangeable as parts of a dictionary key: equal hashes and `==`.  (CPython's hash of the tuples involved is a
function of the hashes of the parts; collisions of tuple hashes with different part hashes are not modelled.) (the cache of features.py:111, 138-142) -/
def FcArg.same (h : Hashes) : FcArg → FcArg → Bool
  | .fam f, .fam g => decide (f.hash h = g.hash h) && f.eq g
  | .val n, .val m => n == m
  | _, _ => false

/-- The key `(tuple(args), tuple(kwargs.items()))` (features.py:138). -/
structure FcKey where
  args : List FcArg
  kwargs : List (String × FcArg)
deriving DecidableEq, Repr

/-- Pointwise comparison of two sequences of one length (Python's `==` of tuples; the key of features.py:138). -/
def sameList {α : Type} (f : α → α → Bool) : List α → List α → Bool
  | [], [] => true
  | x :: xs, y :: ys => f x y && sameList f xs ys
  | _, _ => false

/-- Equality of keys in the cache (features.py:138-142). -/
def FcKey.same (h : Hashes) (k k' : FcKey) : Bool :=
  sameList (FcArg.same h) k.args k'.args &&
  sameList (fun (x y : String × FcArg) => x.1 == y.1 && x.2.same h y.2) k.kwargs k'.kwargs

/-- The state of a bound closure: its cache, and the number of runs of the wrapped function so far (features.py:111). -/
structure FcState (κ : Type) where
  cache : List (κ × Nat)
  runs : Nat

/-- `key in self.cache` / `self.cache[key]` (features.py:139-140). -/
def FcState.lookup {κ : Type} (same : κ → κ → Bool) (s : FcState κ) (k : κ) : Option Nat :=
  (s.cache.find? (fun e => same k e.1)).map (·.2)

/-- What a call returned (`none`: the wrapped function raised) and whether it ran the wrapped function (features.py:137-143). -/
structure FcResult where
  value : Option Nat
  ran : Bool
deriving DecidableEq, Repr

/-- `family_closure.__call__` on a bound closure (features.py:134-143); `ok` says whether the wrapped function returns. -/
def FcState.call {κ : Type} (same : κ → κ → Bool) (s : FcState κ) (k : κ) (ok : Bool) : FcState κ × FcResult :=
  match s.lookup same k with
  | some x => (s, ⟨some x, false⟩)
  | none =>
    if ok then (⟨s.cache ++ [(k, s.runs)], s.runs + 1⟩, ⟨some s.runs, true⟩)
    else (⟨s.cache, s.runs + 1⟩, ⟨none, true⟩)

/-- A sequence of calls (calls of features.py:137-143). -/
def FcState.run {κ : Type} (same : κ → κ → Bool) (s : FcState κ) : List (κ × Bool) → FcState κ × List FcResult
  | [] => (s, [])
  | (k, ok) :: cs =>
    let (s', r) := s.call same k ok
    let (s'', rs) := FcState.run same s' cs
    (s'', r :: rs)

/-- A freshly bound closure (features.py:108-111). -/
def FcState.init (κ : Type) : FcState κ := ⟨[], 0⟩

end Peak
