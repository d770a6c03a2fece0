import Verif.Model.Register
/-!
# Register classes made by a family (peak/family.py:160-243, peak/register.py)

A process calls `family.gen_register` and `family.gen_attr_register`, instantiates the classes and uses the instances.  Types, initial values and
values are abstract; what hwtypes and the user's classes decide about them is collected in `Env`.  The two dictionaries are one list here: their
keys have different lengths.
-/

namespace Peak.RG

/-- A family: its class, and which instance of that class it is (family.py:169, 220). -/
structure Fam where
  cls : Nat
  inst : Nat
  deriving DecidableEq

/-- The three kinds of classes: `has_enable=True`, `has_enable=False` (family.py:168), `gen_attr_register` (219). -/
inductive Kind
  | enable | plain | attr
  deriving DecidableEq

/-- The Python around: which initial values can be hashed, which are the same key, what `T(init)` is, and `isinstance(v, T)` (Python and hwtypes; family.py:170-173, 185, 236). -/
structure Env (T I V : Type) where
  hashable : I → Bool
  same : I → I → Bool
  conv : T → I → Except Err V
  isT : T → V → Bool

variable {T I V : Type}

/-- The class a call makes: the class body closes over `self`, `T` and `init` (family.py:168-217, 219-243). -/
structure Cls (T I : Type) where
  fam : Fam
  ty : T
  init : I
  kind : Kind

/-- An instance: its class and `self.value`, `none` for Python's `None` (family.py:184-185, 232-233). -/
structure Obj (T I V : Type) where
  cls : Cls T I
  value : Option V

/-- The process: the classes, in the order of their making, and the instances (family.py:160-161). -/
structure Proc (T I V : Type) where
  classes : List (Cls T I)
  objs : List (Obj T I V)

/-- What the program does (family.py:168-243). -/
inductive Op (T I V : Type)
  | gen (f : Fam) (t : T) (init : I) (k : Kind)
  | new (c : Nat)
  | call (o : Nat) (value : Option V) (en : Option Bool)
  | prev (o : Nat)
  | poke (o : Nat) (v : V)
  | peak (o : Nat)

/-- What it gets: the number of a class, of an instance, a value, nothing (family.py:168-243). -/
inductive Res (V : Type)
  | cls (n : Nat)
  | obj (n : Nat)
  | val (v : Option V)
  | unit
  | err (e : Err)
  deriving DecidableEq

/-- `key = (cls, T, init, has_enable)` looked up in the dictionary (family.py:169-174, 221-225). -/
def Cls.matches [DecidableEq T] (E : Env T I V) (c : Cls T I) (f : Fam) (t : T) (init : I) (k : Kind) : Bool :=
  decide (c.fam.cls = f.cls) && decide (c.ty = t) && E.same c.init init && decide (c.kind = k)

/-- `gen_register`, `gen_attr_register` (family.py:168-217, 219-243).  A key that cannot be hashed is a TypeError. -/
def Proc.gen [DecidableEq T] (E : Env T I V) (p : Proc T I V) (f : Fam) (t : T) (init : I) (k : Kind) : Res V × Proc T I V :=
  if E.hashable init then
    match p.classes.findIdx? (fun c => c.matches E f t init k) with
    | some n => (.cls n, p)
    | none => (.cls p.classes.length, { p with classes := p.classes ++ [⟨f, t, init, k⟩] })
  else (.err .typeError, p)

/-- `Register()`: `self.value = T(init)` (family.py:184-185, 202-203, 232-233). -/
def Proc.new (E : Env T I V) (p : Proc T I V) (c : Nat) : Res V × Proc T I V :=
  match p.classes[c]? with
  | none => (.err .nameError, p)
  | some c =>
    match E.conv c.ty c.init with
    | .error e => (.err e, p)
    | .ok v => (.obj p.objs.length, { p with objs := p.objs ++ [⟨c, some v⟩] })

/-- `Register.__call__` (family.py:187-192, 205-208); an attribute register has none, other numbers of arguments are refused. -/
def Obj.call (o : Obj T I V) (value : Option V) (en : Option Bool) : Res V × Option V :=
  match o.cls.kind, en with
  | .enable, some e =>
    match regCall o.value (value.map some) e with
    | (.ok r, v) => (.val r, v)
    | (.error x, v) => (.err x, v)
  | .plain, none => (.val o.value, value)
  | _, _ => (.err .typeError, o.value)

/-- `prev()` (family.py:194-198, 210-214) -/
def Obj.prev (o : Obj T I V) : Res V :=
  match o.cls.kind with
  | .attr => .err .attributeError
  | _ => .val o.value

/-- `_poke_` (family.py:235-238) -/
def Obj.poke (E : Env T I V) (o : Obj T I V) (v : V) : Res V × Option V :=
  match o.cls.kind with
  | .attr => if E.isT o.cls.ty v then (.unit, some v) else (.err .typeError, o.value)
  | _ => (.err .attributeError, o.value)

/-- `_peak_` (family.py:240-241) -/
def Obj.peak (o : Obj T I V) : Res V :=
  match o.cls.kind with
  | .attr => .val o.value
  | _ => .err .attributeError

/-- An operation on the instance with number `n` (Python; family.py:187-214, 235-241). -/
def Proc.on (p : Proc T I V) (n : Nat) (f : Obj T I V → Res V × Option V) : Res V × Proc T I V :=
  match p.objs[n]? with
  | none => (.err .nameError, p)
  | some o => ((f o).1, { p with objs := p.objs.set n { o with value := (f o).2 } })

/-- One operation: family.py:168-243. -/
def Proc.step [DecidableEq T] (E : Env T I V) (p : Proc T I V) : Op T I V → Res V × Proc T I V
  | .gen f t init k => p.gen E f t init k
  | .new c => p.new E c
  | .call o v en => p.on o (fun x => x.call v en)
  | .prev o => p.on o (fun x => (x.prev, x.value))
  | .poke o v => p.on o (fun x => x.poke E v)
  | .peak o => p.on o (fun x => (x.peak, x.value))

/-- A sequence of the operations of family.py:168-243. -/
def Proc.run [DecidableEq T] (E : Env T I V) : List (Op T I V) → Proc T I V → Proc T I V
  | [], p => p
  | op :: ops, p => Proc.run E ops (p.step E op).2

/-- The objects of the old `gen_register2(family, T, init=0)` (register.py:22-35): `self.value = init`, whatever it is. -/
def old (t : T) (init : V) (i : I) : Obj T I V := ⟨⟨⟨0, 0⟩, t, i, .enable⟩, some init⟩

end Peak.RG
