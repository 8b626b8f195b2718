import Verif.Model.Observable
/-!
# Independent specification for `Observable`
-/
namespace Parce.Obs
variable {E F : Type}

/-- The connections in the order in which they were made. -/
structure Conn (E F : Type) where
  event : E
  func : F
  once : Bool
  prio : Int
deriving DecidableEq

/-- `calls` are the connections `cs` in order of priority and, for equal priority, in order of
    connecting. -/
structure InOrder (cs calls : List (Conn E F)) : Prop where
  sorted : calls.Pairwise (fun a b => a.prio ≤ b.prio)
  same : ∀ p : Int, calls.filter (fun c => decide (c.prio = p)) = cs.filter (fun c => decide (c.prio = p))

/-- What the operations should do: `cs` are the connections so far, `out` the calls of every
    `emit` that are allowed. -/
inductive Runs [DecidableEq E] [DecidableEq F] : List (Conn E F) → List (Op E F) → List (Conn E F) → List (E × List F) → Prop where
  | nil (cs) : Runs cs [] cs []
  /-- connecting again does nothing -/
  | again (cs ops cs' out e f once prio) : (∃ c ∈ cs, c.event = e ∧ c.func = f) → Runs cs ops cs' out →
      Runs cs (.connect e f once prio :: ops) cs' out
  | connect (cs ops cs' out e f once prio) : (¬ ∃ c ∈ cs, c.event = e ∧ c.func = f) →
      Runs (cs ++ [⟨e, f, once, prio⟩]) ops cs' out →
      Runs cs (.connect e f once prio :: ops) cs' out
  | disconnect (cs ops cs' out e f) :
      Runs (cs.filter (fun c => !(decide (c.event = e) && decide (c.func = f)))) ops cs' out →
      Runs cs (.disconnect e f :: ops) cs' out
  | disconnectAll (cs ops cs' out) : Runs [] ops cs' out → Runs cs (.disconnectAll none :: ops) cs' out
  | disconnectEvent (cs ops cs' out e) : Runs (cs.filter (fun c => !decide (c.event = e))) ops cs' out →
      Runs cs (.disconnectAll (some e) :: ops) cs' out
  /-- the connected functions that are alive are called; those connected once only, and those
      that are gone, are disconnected -/
  | emit (cs ops cs' out e alive calls) :
      InOrder (cs.filter (fun c => decide (c.event = e) && alive c.func)) calls →
      Runs (cs.filter (fun c => !(decide (c.event = e) && (c.once || !alive c.func)))) ops cs' out →
      Runs cs (.emit e alive :: ops) cs' ((e, calls.map (·.func)) :: out)

end Parce.Obs
