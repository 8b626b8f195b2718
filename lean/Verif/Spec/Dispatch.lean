import Verif.Model.Dispatch
/-!
# What a dispatcher should do
-/
namespace Parce.Disp
variable {Key Name Fn : Type} [DecidableEq Key] [DecidableEq Name]

/-- The name that the body of a class registers for a key: the last `@dispatch(...)` with that key counts. -/
def registered (decos : List (List Key × Name)) (key : Key) : Option Name := (decos.reverse.find? fun d => d.1.contains key).map (·.2)

/-- The table that the body of a class makes. -/
def bodyTable (decos : List (List Key × Name)) : Table Key Name := decos.foldl (fun t d => register t d.1 d.2) []

/-- A class: the `@dispatch(...)` decorators, if it has a dispatcher with the name, and the other attributes. -/
structure Class (Key Name Fn : Type) where
  decos : Option (List (List Key × Name))
  attrs : Name → Option (Attr Key Name Fn)

/-- The dictionary of the class. -/
def Class.dict (name : Name) (c : Class Key Name Fn) : Cls Key Name Fn := fun n =>
  if n = name then c.decos.map fun d => .dispatcher (bodyTable d) else c.attrs n

/-- The name for a key: that of the first class in the order that registers the key. -/
def nameFor (mro : List (Class Key Name Fn)) (key : Key) : Option Name := mro.findSome? fun c => c.decos.bind fun d => registered d key

/-- The first class in the order that has the attribute. -/
def lookup (name : Name) (mro : List (Class Key Name Fn)) (n : Name) : Option (Attr Key Name Fn) := mro.findSome? fun c => c.dict name n

/-- All names that a class in the order registers have an attribute. -/
def Defined (name : Name) (mro : List (Class Key Name Fn)) : Prop :=
  ∀ key n, nameFor mro key = some n → lookup name mro n ≠ none

/-- What is called for a key. -/
def expected (name : Name) (mro : List (Class Key Name Fn)) (key : Key) : Call Key Name Fn :=
  match nameFor mro key with
  | none => .default
  | some n => match lookup name mro n with
    | none => .error
    | some f => .method f

end Parce.Disp
