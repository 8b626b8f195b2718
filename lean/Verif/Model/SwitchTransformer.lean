import Verif.Model.Transform
/-!
# Model of a plain `Worker` whose transformer is replaced, parce/work.py

`process()` is run to its end by every call, without threads. A tree with the identities of its contexts, and for every
transformer its cache (`transform.py:195`) and the last result.
-/
namespace Parce.Sw
variable {α L A R G N I T : Type}

/-- The tree of the builder, the transformer of the worker, and the state of all transformers. -/
structure State (α L A R I T : Type) where
  lex : L
  kids : List (Node α L A)
  ident : List Nat → I
  cur : T
  cache : T → I → Option R
  result : T → Option (Option R)

/-- Replacing what belongs to one transformer. -/
def upd {β : Type} [DecidableEq T] (f : T → β) (t : T) (b : β) : T → β := fun u => if u = t then b else f u

/-- The second half of `Worker.process`, `work.py:190-206`: run the current transformer. -/
def runT [DecidableEq G] [DecidableEq I] [DecidableEq T] (env : T → TrEnv α L A R G N) (s : State α L A R I T) : State α L A R I T :=
  let r := trProcess (env s.cur) s.ident (fun _ => false) false (s.cache s.cur) s.lex s.kids
  ⟨s.lex, s.kids, s.ident, s.cur, upd s.cache s.cur r.2, upd s.result s.cur (match r.1 with | some x => some x | none => s.result s.cur)⟩

/-- `set_transformer(t)`, `work.py:110-126`, with a transformer (not None). -/
def setT [DecidableEq G] [DecidableEq I] [DecidableEq T] (env : T → TrEnv α L A R G N) (t : T) (s : State α L A R I T) :
    State α L A R I T :=
  if t = s.cur then s else runT env ⟨s.lex, s.kids, s.ident, t, s.cache, s.result⟩

/-- `update()` that replaces the tree by another one: the builder emits "invalidate" with a context, `slot_invalidate` clears this context
    and its ancestors (with the identities `ids`) from the cache of the current transformer, `work.py:289-297`; then the
    transformer is run. `none`: KeyError in `invalidate_node`. -/
def edit [DecidableEq G] [DecidableEq I] [DecidableEq T] (env : T → TrEnv α L A R G N) (ids : List I) (kids : List (Node α L A))
    (ident : List Nat → I) (s : State α L A R I T) : Option (State α L A R I T) :=
  let r := invalidate ids (s.cache s.cur)
  if r.1 then some (runT env ⟨s.lex, kids, ident, s.cur, upd s.cache s.cur r.2, s.result⟩) else none

end Parce.Sw
