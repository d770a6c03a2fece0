import Verif.Model.SmtForms
/-!
# `peak/mapper/utils.py:34-224`: `SMTForms` of a given value

The call with `value=x`.  The recursion takes the value apart by fields instead of creating variables.  `tu` tells which of the union classes are
`TaggedUnion`s.  A leaf entry of a varmap is represented by its bits, also for `Bit` leaves (one bit).
-/

namespace Peak

/-- `isinstance(value, aadt_t)` (utils.py:36-37, 58). -/
def AV.isOf (t : Ty) : AV → Bool
  | .bit _ => match t with
    | .bit _ => true
    | _ => false
  | .bits b => match t with
    | .bv _ w => b.size == w
    | _ => false
  | .adt t' _ => match t with
    | .bit _ => false
    | .bv _ _ => false
    | t => decide (t' = t)

/-- `x[_TAG]` (assembled_adt.py:258-281). -/
def AV.getTag (A : Ty → Except Err AsmObj) (x : AV) : Except Err BV :=
  match x with
  | .adt (.sum c fs) b =>
    match A (.sum c fs) with
    | .error e => .error e
    | .ok o =>
      match (o.sub (.sum c fs)).tagIdx with
      | .error e => .error e
      | .ok r => .ok (b.slice r.1 r.2)
  | _ => .error .keyError

/-- A leaf (utils.py:40-62): the value's bits. -/
def valLeaf (p : RPath) (x : AV) : FormsRes := ⟨[⟨x, [], [(p, x.asBv)]⟩], ⟨[(p, x.asBv)], [], []⟩, x⟩

mutual
/-- `SMTForms()(aadt_t, path, value)` (peak/mapper/utils.py:34-224). -/
def valForms (A : Ty → Except Err AsmObj) (tu : Nat → Bool) : Ty → RPath → AV → Except Err FormsRes
  | .bv c w, p, x => if x.isOf (.bv c w) then .ok (valLeaf p x) else .error .assertionError
  | .bit c, p, x => if x.isOf (.bit c) then .ok (valLeaf p x) else .error .assertionError
  | .enum c ms, p, x => if x.isOf (.enum c ms) then .ok (valLeaf p x) else .error .assertionError
  | .prod c fs, p, x =>                                                                      -- utils.py:159-224
    if x.isOf (.prod c fs) then
      match valFields A tu x fs p with
      | .error e => .error e
      | .ok rows =>
        match AV.fromFields A (.prod c fs) (rows.map (fun r => .asm r.value)) 0 with
        | .error e => .error e
        | .ok y =>
          match exMap (combineForms A (.prod c fs)) (pyProduct (rows.map (·.forms))) with
          | .error e => .error e
          | .ok forms => .ok ⟨forms, rows.foldr (fun r vm => r.varmap.append vm) ⟨[], [], []⟩, y⟩
    else .error .assertionError
  | .sum c fs, p, x =>                                                                       -- utils.py:64-156
    if x.isOf (.sum c fs) then
      match x.getTag A with                                                                  -- 71, 118
      | .error e => .error e
      | .ok tag =>
        match valOptions A tu x (.sum c fs) (tu c) tag fs p with
        | .error e => .error e
        | .ok rows =>
          match iteChain (rows.map (fun r => (r.1, r.2.1.value, r.2.2))) with
          | .error e => .error e
          | .ok y =>
            .ok ⟨rows.flatMap (fun r => r.2.1.forms),
              Varmap.append ⟨[], [(p, tag)], [(p, rows.map (fun r => (r.1, r.2.2)))]⟩
                (rows.foldr (fun r vm => r.2.1.varmap.append vm) ⟨[], [], []⟩), y⟩
    else .error .assertionError
/-- The loop over the fields of a product or tuple (utils.py:169-179, 202-212). -/
def valFields (A : Ty → Except Err AsmObj) (tu : Nat → Bool) (x : AV) : Fields → RPath → Except Err (List FormsRes)
  | .nil, _ => .ok []
  | .cons k t fs, p =>
    match x.get A k with
    | .error e => .error e
    | .ok y =>
      match valForms A tu t (p ++ [k]) y with
      | .error e => .error e
      | .ok r =>
        match valFields A tu x fs p with
        | .error e => .error e
        | .ok rs => .ok (r :: rs)
/-- The loop over the options of a union (utils.py:79-101, 126-148).  For a `TaggedUnion` (`tagged`) line 132 looks the option up by its type instead of
its name, a KeyError. -/
def valOptions (A : Ty → Except Err AsmObj) (tu : Nat → Bool) (x : AV) (u : Ty) (tagged : Bool) (tag : BV) :
    Fields → RPath → Except Err (List (Key × FormsRes × Bool))
  | .nil, _ => .ok []
  | .cons k t fs, p =>
    if tagged then .error .keyError
    else
      match x.getOption A k with                                                             -- 85
      | .error e => .error e
      | .ok (_, y) =>
        match valForms A tu t (p ++ [k]) y with
        | .error e => .error e
        | .ok r =>
          match AV.fromOption A u k (.asm r.value) (some tag) 0 with                         -- 87
          | .error e => .error e
          | .ok z =>
            match z.getOption A k with                                                       -- 98
            | .error e => .error e
            | .ok (m, _) =>
              match valOptions A tu x u tagged tag fs p with
              | .error e => .error e
              | .ok rs =>
                .ok ((k, ⟨r.forms.map (fun f => ⟨x, (p, k) :: f.pathDict, f.leaves⟩), r.varmap, z⟩, m) :: rs)
end

end Peak
