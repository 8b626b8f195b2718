import Verif.Model.Transform
/-!
# Transforms that do not look at positions

Model of a Transform (`transform.py:151-157`) whose methods only use the text and the action of the tokens, and the names and
objects of the items in an ItemList (`transform.py:38-80`).
-/
namespace Parce
variable {α L A R N : Type}

/-- A member of an ItemList, without the position of a token: a token, or an `Item` (`transform.py:38-53`). -/
inductive BItm (α A R N : Type) where
  | tok (text : List α) (act : A)
  | item (name : N) (obj : R)

/-- Leave out the position. (Untransformed contexts do not occur: no method asks for them.) -/
def TItm.bare : TItm α L A R N → Option (BItm α A R N)
  | .tok t => some (.tok t.text t.act)
  | .item n r => some (.item n r)
  | .raw _ => none

/-- A Transform with these methods, for one language; the names of the methods are those of the lexicons. -/
def bareEnv (meths : L → Option (List (BItm α A R L) → R)) : TrEnv α L A R Unit L where
  language _ := ()
  name l := l
  find _ l := (meths l).map fun f => ⟨fun il => f (il.elems.filterMap TItm.bare), false⟩

end Parce
