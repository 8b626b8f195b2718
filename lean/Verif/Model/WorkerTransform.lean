/-!
# Model of the transform protocol of `Worker` in parce/work.py and `Transformer.process` in parce/transform.py

All calls come from the main thread, as the documentation requires; `process()` runs in background threads
(`BackgroundWorker.run_process`, `work.py:336-340`). Each step is one atomic action of one thread. Texts and trees are numbered:
`want` is the number of the latest text, `tree` that of the text the tree is built from. The tree state is left out (it is
in Model/Worker), and so is polling for changes while building.
-/
namespace Parce.WT

/-- The values of `_transform_state`, `work.py:49-52`. -/
inductive TS where
  | idle | build | replace | done
deriving DecidableEq, Repr

/-- `state & REPLACE != 0`: `get_transform(wait=True)` waits, `work.py:223-234`, `280`. -/
def TS.waits : TS → Bool
  | .idle => false
  | .build => true
  | .replace => true
  | .done => false

/-- Where the main thread is. -/
inductive Main where
  | idle
  /-- in `update()`, has added the change, about to evaluate `if not self._builder.busy` (`work.py:142`) -/
  | test
  /-- about to set `busy = True` (143) -/
  | setBusy
  /-- in `start()`, about to set the states (153-156) -/
  | start
  /-- about to call `run_process()` (157) -/
  | spawn
deriving DecidableEq, Repr

/-- Where a background thread is in `process()`, `work.py:171-213`. -/
inductive PC where
  /-- about to look for changes (`treebuilder.py:562-563`, `575-576`) -/
  | start
  /-- building the tree for text `v` (566) -/
  | building (v : Nat)
  /-- has emitted "replace", about to replace the tree (569) -/
  | replacing (v : Nat)
  /-- about to read `self._transformer`; `old` is the one that was run (`work.py:192`, `205`) -/
  | fetch (old : Option Nat)
  /-- in `t.process()` at "build", about to set the state (`transform.py:368`, `work.py:197-201`) -/
  | tstart (t : Nat)
  /-- at the begin of `transform_tree` (`transform.py:302`) -/
  | tinit (t : Nat)
  /-- in the loop of `transform_tree` (314), for the tree of text `v` -/
  | loop (t : Nat) (v : Nat)
  /-- at "replace", with the result (370) -/
  | ready (t : Nat) (r : Option Nat)
  /-- about to store the result (371-373) -/
  | store (t : Nat) (r : Option Nat)
  /-- about to delete the mark (374) -/
  | del (t : Nat)
  /-- at "done" (375) -/
  | tdone (t : Nat)
  /-- in the `finally` clause (`work.py:209-213`) -/
  | ending
deriving DecidableEq, Repr

/-- `intr` and `cache` are the attributes `_interrupt` and `_cache` of every transformer (`transform.py:195-196`), for the root of
    the tree: the mark, and the number of the text of which the result is stored. `raised` is true when a thread was ended by a
    KeyError. -/
structure State where
  want : Nat
  taken : Nat
  busy : Bool
  tree : Nat
  transformer : Option Nat
  ts : TS
  intr : Nat → Option Bool
  cache : Nat → Option Nat
  main : Main
  threads : List PC
  raised : Bool

/-- `Worker.__init__`, `work.py:93-106`. -/
def init (transformer : Option Nat) : State :=
  ⟨0, 0, false, 0, transformer, .idle, fun _ => none, fun _ => none, .idle, [], false⟩

/-- Assignment of a key. -/
def put {β : Type} (f : Nat → β) (t : Nat) (b : β) : Nat → β := fun x => if x = t then b else f x

/-- What happens next: a call of `update()`, of `set_transformer()`, a step of the main thread, or a step of the `i`-th background
    thread; `go` says that the loop of `transform_tree` comes to its end, if it may. -/
inductive Act where
  | update
  | setT (t : Option Nat)
  | main
  | thread (i : Nat) (go : Bool)

/-- A step of the main thread in `update()` or `start()`, `work.py:141-157`. -/
def mainStep (s : State) : Option State :=
  match s.main with
  | .idle => none
  | .test => some (if s.busy then { s with main := .idle } else { s with main := .setBusy })
  | .setBusy => some { s with busy := true, main := .start }
  | .start =>
    some { s with ts := if s.transformer.isSome ∧ s.ts = .idle then .build else s.ts, main := .spawn }
  | .spawn => some { s with threads := s.threads ++ [.start], main := .idle }

/-- The thread goes on at `p`. -/
def State.goto (s : State) (i : Nat) (p : PC) : State := { s with threads := s.threads.set i p }

/-- A KeyError ends the generator; the `finally` clause is executed. -/
def State.raise (s : State) (i : Nat) : State := { s with threads := s.threads.set i .ending, raised := true }

/-- A step of a background thread. The end of building, `treebuilder.py:575-584`, holds the lock of the builder and is one step.
    On "replace" the current transformer is interrupted (`slot_replace`, `work.py:299-306`). -/
def threadStep (s : State) (i : Nat) (go : Bool) : PC → State
  | .start =>
    if s.taken < s.want then ({ s with taken := s.want }).goto i (.building s.want)
    else ({ s with busy := false }).goto i (.fetch none)
  | .building v =>
    (match s.transformer with
      | some t => { s with intr := put s.intr t (some true) }
      | none => s).goto i (.replacing v)
  | .replacing v => ({ s with tree := v }).goto i .start
  | .fetch old =>
    match s.transformer with
    | none => s.goto i .ending
    | some t => if old = some t then s.goto i .ending else s.goto i (.tstart t)
  | .tstart t => ({ s with ts := .build }).goto i (.tinit t)
  | .tinit t => ({ s with intr := put s.intr t (some false) }).goto i (.loop t s.tree)
  | .loop t v =>
    match s.intr t with
    | none => s.raise i
    | some true => s.goto i (.ready t none)
    | some false => if go then s.goto i (.ready t (some v)) else s
  | .ready t r => ({ s with ts := .replace }).goto i (.store t r)
  | .store t r =>
    match s.intr t with
    | none => s.raise i
    | some true => s.goto i (.del t)
    | some false => ({ s with cache := put s.cache t r }).goto i (.del t)
  | .del t =>
    match s.intr t with
    | none => s.raise i
    | some _ => ({ s with intr := put s.intr t none }).goto i (.tdone t)
  | .tdone t => ({ s with ts := .done }).goto i (.fetch (some t))
  | .ending => { s with ts := .idle, threads := s.threads.eraseIdx i }

/-- One step. `update()` adds the change (`work.py:141`) and goes on; `set_transformer()` is `work.py:110-126`, the transformer is set and
    the state is read with the transform lock held. -/
def step (s : State) : Act → Option State
  | .update => if s.main = .idle then some { s with want := s.want + 1, main := .test } else none
  | .setT t =>
    if s.main = .idle then
      some (if t = s.transformer then s
        else { s with transformer := t, main := if s.ts.waits then .idle else .start })
    else none
  | .main => mainStep s
  | .thread i go => (s.threads[i]?).map (threadStep s i go)

/-- A sequence of steps. -/
def run (s : State) : List Act → Option State
  | [] => some s
  | a :: as => (step s a).bind (fun s' => run s' as)

/-- `get_transform(wait=True)` returns (`some`) in this state, and what it returns, `work.py:277-285`. -/
def getTransform (s : State) : Option (Option Nat) :=
  match s.transformer with
  | none => some none
  | some t => if s.ts.waits then none else some (s.cache t)

/-- Executions without overlap: `start()` is only executed when no other thread is in `process()`, and `set_transformer()` is only
    called then. With a plain `Worker`, that runs `process()` in `start()`, it is always so. -/
inductive Calm (tr : Option Nat) : State → Prop where
  | init : Calm tr (init tr)
  | step {s s' : State} (a : Act) : Calm tr s → step s a = some s' → (s.main = .start → a = .main → s.threads = []) →
      ((∃ t, a = .setT t) → s.threads = []) → Calm tr s'

/-- All executions. -/
inductive Reach (tr : Option Nat) : State → Prop where
  | init : Reach tr (init tr)
  | step {s s' : State} (a : Act) : Reach tr s → step s a = some s' → Reach tr s'

theorem reach_run {tr : Option Nat} : ∀ (as : List Act) {s s' : State}, Reach tr s → run s as = some s' → Reach tr s'
  | [], s, s', h, hr => by
    simp only [run, Option.some.injEq] at hr
    exact hr ▸ h
  | a :: as, s, s', h, hr => by
    simp only [run] at hr
    cases hs : step s a with
    | none => rw [hs] at hr; cases hr
    | some s1 =>
      rw [hs] at hr
      exact reach_run as (.step a h hs) hr

end Parce.WT
