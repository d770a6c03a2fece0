import Verif.Model.AssembledADT
import Verif.Model.Bindings
import Verif.Model.RewriteRule
/-!
# `peak/mapper/utils.py:34-224`: `SMTForms`

The terms built from solver variables are modelled by their values under an assignment of the variables: `ρ p` is the value of the leaf
variable created at path `p`, `τ p` that of the tag variable created at path `p`.  All variables are fresh.  The operations on
SMT bit vectors are those of `Model/AssembledADT` (the families share the code).  Only the call with `value=None` is modelled here.
-/

namespace Peak

/-- `Form` (utils.py:21).  `varmap` of a form holds leaves only. -/
structure SForm where
  value : AV
  pathDict : List (RPath × Key)
  leaves : List (RPath × BV)

/-- The `varmap` returned next to the forms: the entries at paths of leaves, the `path + (_TAG,)` entries, and the
`path + (Match,)` entries (utils.py:30-33, 76-77). -/
structure Varmap where
  leaves : List (RPath × BV)
  tags : List (RPath × BV)
  matches_ : List (RPath × List (Key × Bool))

/-- `varmap.update`: no two of the dictionaries have a key in common (see `forms_spec`), so it is a concatenation (utils.py:64-224). -/
def Varmap.append (a b : Varmap) : Varmap := ⟨a.leaves ++ b.leaves, a.tags ++ b.tags, a.matches_ ++ b.matches_⟩

/-- Apply a function that may raise to the elements of a list, in order (Python; the loops of utils.py:64-224). -/
def exMap {α β : Type} (f : α → Except Err β) : List α → Except Err (List β)
  | [] => .ok []
  | a :: l =>
    match f a with
    | .error e => .error e
    | .ok b =>
      match exMap f l with
      | .error e => .error e
      | .ok bs => .ok (b :: bs)

/-- What the recursion returns (utils.py:34-48). -/
structure FormsRes where
  forms : List SForm
  varmap : Varmap
  value : AV

/-- One element of `it.product(*forms_to_product)` made into a form (utils.py:182-191, 213-222). -/
def combineForms (A : Ty → Except Err AsmObj) (t : Ty) (subs : List SForm) : Except Err SForm :=
  match AV.fromFields A t (subs.map (fun f => .asm f.value)) 0 with
  | .error e => .error e
  | .ok y => .ok ⟨y, subs.flatMap (·.pathDict), subs.flatMap (·.leaves)⟩

/-- A form of the option `k` made into a form of the union (utils.py:90-97, 137-144). -/
def liftForm (A : Ty → Except Err AsmObj) (t : Ty) (p : RPath) (k : Key) (tag : BV) (f : SForm) : Except Err SForm :=
  match AV.fromOption A t k (.asm f.value) (some tag) 0 with
  | .error e => .error e
  | .ok y => .ok ⟨y, (p, k) :: f.pathDict, f.leaves⟩

/-- The ite chain (utils.py:103-107, 150-155): the first option's value, overridden by each later one that matches. -/
def iteChain : List (Key × AV × Bool) → Except Err AV
  | [] => .error .indexError
  | (_, x, _) :: l => .ok (l.foldl (fun acc e => if e.2.2 then e.2.1 else acc) x)

mutual
/-- `SMTForms()(aadt_t, path)` (peak/mapper/utils.py:34-224). -/
def smtForms (A : Ty → Except Err AsmObj) (ρ τ : RPath → Nat) : Ty → RPath → Except Err FormsRes
  | .bv _ w, p =>                                                                            -- utils.py:40-48
    let b := BV.ofNat w (ρ p)
    .ok ⟨[⟨.bits b, [], [(p, b)]⟩], ⟨[(p, b)], [], []⟩, .bits b⟩
  | .bit _, p =>
    let b := BV.ofNat 1 (ρ p)
    .ok ⟨[⟨.bit (b.val == 1), [], [(p, b)]⟩], ⟨[(p, b)], [], []⟩, .bit (b.val == 1)⟩
  | .enum c ms, p =>                                                                         -- utils.py:50-62
    match A (.enum c ms) with
    | .error e => .error e
    | .ok o =>
      let b := BV.ofNat o.width (ρ p)
      match AV.new A (.enum c ms) (.asm (.bits b)) with
      | .error e => .error e
      | .ok x => .ok ⟨[⟨x, [], [(p, b)]⟩], ⟨[(p, b)], [], []⟩, x⟩
  | .prod c fs, p =>                                                                         -- utils.py:159-224
    match smtFields A ρ τ fs p with
    | .error e => .error e
    | .ok rows =>
      match AV.fromFields A (.prod c fs) (rows.map (fun r => .asm r.value)) 0 with
      | .error e => .error e
      | .ok x =>
        match exMap (combineForms A (.prod c fs)) (pyProduct (rows.map (·.forms))) with
        | .error e => .error e
        | .ok forms => .ok ⟨forms, rows.foldr (fun r vm => r.varmap.append vm) ⟨[], [], []⟩, x⟩
  | .sum c fs, p =>                                                                          -- utils.py:64-156
    match A (.sum c fs) with
    | .error e => .error e
    | .ok o =>
      match o.tag with
      | none => .error .attributeError
      | some tg =>
        let tag := BV.ofNat tg.width (τ p)
        match smtOptions A ρ τ (.sum c fs) tag fs p with
        | .error e => .error e
        | .ok rows =>
          match iteChain (rows.map (fun r => (r.1, r.2.1.value, r.2.2))) with
          | .error e => .error e
          | .ok x =>
            .ok ⟨rows.flatMap (fun r => r.2.1.forms),
              Varmap.append ⟨[], [(p, tag)], [(p, rows.map (fun r => (r.1, r.2.2)))]⟩
                (rows.foldr (fun r vm => r.2.1.varmap.append vm) ⟨[], [], []⟩), x⟩
/-- The loop over the fields of a product or tuple (utils.py:169-179, 202-212). -/
def smtFields (A : Ty → Except Err AsmObj) (ρ τ : RPath → Nat) : Fields → RPath → Except Err (List FormsRes)
  | .nil, _ => .ok []
  | .cons k t fs, p =>
    match smtForms A ρ τ t (p ++ [k]) with
    | .error e => .error e
    | .ok r =>
      match smtFields A ρ τ fs p with
      | .error e => .error e
      | .ok rs => .ok (r :: rs)
/-- The loop over the options of a union (utils.py:79-101, 126-148): per option its lifted forms, its varmap, the union value made
from it, and its match condition. -/
def smtOptions (A : Ty → Except Err AsmObj) (ρ τ : RPath → Nat) (u : Ty) (tag : BV) :
    Fields → RPath → Except Err (List (Key × FormsRes × Bool))
  | .nil, _ => .ok []
  | .cons k t fs, p =>
    match smtForms A ρ τ t (p ++ [k]) with
    | .error e => .error e
    | .ok r =>
      match AV.fromOption A u k (.asm r.value) (some tag) 0 with
      | .error e => .error e
      | .ok x =>
        match exMap (liftForm A u p k tag) r.forms with
        | .error e => .error e
        | .ok forms =>
          match x.getOption A k with
          | .error e => .error e
          | .ok (m, _) =>
            match smtOptions A ρ τ u tag fs p with
            | .error e => .error e
            | .ok rs => .ok ((k, ⟨forms, r.varmap, x⟩, m) :: rs)
end

/-- All match conditions selected by a form hold: `varmap[path + (Match,)][field]` for every `path: field` of its `path_dict` (the conditions selected at mapper.py:529-539). -/
def formMatches (vm : Varmap) (f : SForm) : Bool :=
  f.pathDict.all (fun e => ((vm.matches_.lookup e.1).bind (·.lookup e.2)) == some true)

end Peak
