/-!
# Model of `Dispatcher` in parce/util.py

Classes are given by their dictionaries. The method resolution order of a class is the list of dictionaries of the class itself and its bases,
as `owner.mro()` has it.
-/
namespace Parce.Disp
variable {Key Name Fn : Type} [DecidableEq Key] [DecidableEq Name]

/-- A table: a dictionary as a list of pairs with different keys, in order. -/
abbrev Table (Key Val : Type) := List (Key × Val)

/-- `d[k] = v`. -/
def Table.set {Val : Type} : Table Key Val → Key → Val → Table Key Val
  | [], k, v => [(k, v)]
  | (k', v') :: r, k, v => if k' = k then (k', v) :: r else (k', v') :: Table.set r k v

/-- `d.get(k)`. -/
def Table.get {Val : Type} (d : Table Key Val) (k : Key) : Option Val := (d.find? fun e => e.1 = k).map (·.2)

/-- `d.update(e)`. -/
def Table.update {Val : Type} (d e : Table Key Val) : Table Key Val := e.foldl (fun d p => d.set p.1 p.2) d

/-- What is in the dictionary of a class: a dispatcher, with its table of names, `util.py:112-128`, or a function, or something else. -/
inductive Attr (Key Name Fn : Type) where
  | dispatcher (table : Table Key Name)
  | func (f : Fn)
  | other
deriving Repr

/-- `dispatch(*args)(func)`, `util.py:121-126`: in the body of a class, with the arguments and the name of the function. -/
def register (t : Table Key Name) (keys : List Key) (name : Name) : Table Key Name := keys.foldl (fun t k => t.set k name) t

/-- The dictionary of a class. -/
abbrev Cls (Key Name Fn : Type) := Name → Option (Attr Key Name Fn)

/-- The tables of the dispatchers with this name, `util.py:137-142`. -/
def dispatchers (mro : List (Cls Key Name Fn)) (name : Name) : List (Table Key Name) :=
  mro.filterMap fun c => match c name with
    | some (.dispatcher t) => some t
    | _ => none

/-- The names, `util.py:143-145`. -/
def merged (mro : List (Cls Key Name Fn)) (name : Name) : Table Key Name := (dispatchers mro name).reverse.foldl (fun d t => d.update t) []

/-- `getattr(owner, name)`. -/
def getattr (mro : List (Cls Key Name Fn)) (name : Name) : Option (Attr Key Name Fn) := mro.findSome? fun c => c name

/-- The table of a class, `util.py:146-148`; none if an attribute is missing (AttributeError). -/
def tableOf (mro : List (Cls Key Name Fn)) (name : Name) : Option (Table Key (Attr Key Name Fn)) :=
  (merged mro name).mapM fun e => (getattr mro e.2).map fun a => (e.1, a)

/-- What a call does, `util.py:171-179`: the method for the key is called, or the default function, or nothing. -/
inductive Call (Key Name Fn : Type) where
  | method (f : Attr Key Name Fn)
  | default
  | error
deriving Repr

/-- `instance.dispatch(key, ...)`, `util.py:130-151`, `util.py:171-179`. All attributes count as true. -/
def call (mro : List (Cls Key Name Fn)) (name : Name) (key : Key) : Call Key Name Fn :=
  match tableOf mro name with
  | none => .error
  | some t => match t.get key with
    | some f => .method f
    | none => .default

end Parce.Disp
