/-!
# Model of the caches in parce/util.py that threads share

Threads are numbered. The values that a function makes are numbered as well, in the order in which they are made, so that
equal numbers mean the same object.
-/
namespace Parce.Cache
variable {O K : Type} [DecidableEq O] [DecidableEq K]

/-- The function with another value for one argument. -/
def upd {A B : Type} [DecidableEq A] (f : A → B) (a : A) (b : B) : A → B := fun x => if x = a then b else f x

/-- What a call returns: a value, None, or an exception that is raised. -/
inductive Res where
  | val (n : Nat)
  | nothing
  | raised
deriving DecidableEq, Repr

/-! ### One lock: `caching_dict`, `Lexicon.parse`, `Dispatcher.__get__` -/

/-- What a thread is doing. -/
inductive DPhase (K : Type) where
  | idle
  /-- waits for the lock -/
  | asks (k : K)
  /-- has the lock -/
  | holds (k : K)
  /-- runs the function -/
  | calls (k : K)
  /-- is about to release the lock and to return -/
  | leaves (k : K) (r : Res)
deriving DecidableEq, Repr

structure DState (K : Type) where
  phase : Nat → DPhase K := fun _ => .idle
  lock : Option Nat := none
  cache : K → Option Res := fun _ => none
  made : Nat := 0
  /-- the keys for which the function was called, and the results, in that order -/
  called : List K := []
  results : List (K × Res) := []
  /-- what the threads got -/
  returned : List (K × Res) := []

/-- The steps of `cache.__getitem__` in `caching_dict`, `util.py:556-601`. With `keepNone` false, None is not kept (`cache_none=False`).
    With `fast`, a value that is there is also found without the lock: so are the attribute `parse` of a lexicon, `lexicon.py:245-257`,
    and the table of a dispatcher, `util.py:130-151`. -/
inductive DStep (keepNone fast : Bool) : DState K → DState K → Prop
  | peek {s : DState K} (t : Nat) (k : K) (r : Res) : fast = true → s.phase t = .idle → s.cache k = some r →
      DStep keepNone fast s { s with returned := s.returned ++ [(k, r)] }
  | ask {s : DState K} (t : Nat) (k : K) : s.phase t = .idle → DStep keepNone fast s { s with phase := upd s.phase t (.asks k) }
  | acquire {s : DState K} (t : Nat) (k : K) : s.phase t = .asks k → s.lock = none →
      DStep keepNone fast s { s with phase := upd s.phase t (.holds k), lock := some t }
  | hit {s : DState K} (t : Nat) (k : K) (r : Res) : s.phase t = .holds k → s.cache k = some r →
      DStep keepNone fast s { s with phase := upd s.phase t (.leaves k r) }
  | miss {s : DState K} (t : Nat) (k : K) : s.phase t = .holds k → s.cache k = none →
      DStep keepNone fast s { s with phase := upd s.phase t (.calls k), called := s.called ++ [k] }
  | value {s : DState K} (t : Nat) (k : K) : s.phase t = .calls k →
      DStep keepNone fast s { s with
        phase := upd s.phase t (.leaves k (.val s.made)), cache := upd s.cache k (some (.val s.made)), made := s.made + 1, results := s.results ++ [(k, .val s.made)] }
  | nothing {s : DState K} (t : Nat) (k : K) : s.phase t = .calls k →
      DStep keepNone fast s { s with
        phase := upd s.phase t (.leaves k .nothing), cache := if keepNone then upd s.cache k (some .nothing) else s.cache, results := s.results ++ [(k, .nothing)] }
  | raise {s : DState K} (t : Nat) (k : K) : s.phase t = .calls k →
      DStep keepNone fast s { s with phase := upd s.phase t (.leaves k .raised), results := s.results ++ [(k, .raised)] }
  | release {s : DState K} (t : Nat) (k : K) (r : Res) : s.phase t = .leaves k r →
      DStep keepNone fast s { s with phase := upd s.phase t .idle, lock := none, returned := s.returned ++ [(k, r)] }

inductive DReach (keepNone fast : Bool) : DState K → Prop
  | init : DReach keepNone fast {}
  | step {s s' : DState K} : DReach keepNone fast s → DStep keepNone fast s s' → DReach keepNone fast s'

/-! ### A lock for each object: `object_locker`, `cached_method` -/

/-- What a thread is doing: `own` says that it made the lock, which it then removes. -/
inductive MPhase (O K : Type) where
  | idle
  | asks (o : O) (k : K) (l : Nat) (own : Bool)
  | holds (o : O) (k : K) (l : Nat) (own : Bool)
  | calls (o : O) (k : K) (l : Nat) (own : Bool)
  | leaves (o : O) (k : K) (l : Nat) (own : Bool) (r : Res)
  /-- is about to remove the lock from the table -/
  | clears (o : O) (k : K) (r : Res)
deriving DecidableEq, Repr

structure MState (O K : Type) where
  phase : Nat → MPhase O K := fun _ => .idle
  /-- `locker` -/
  table : O → Option Nat := fun _ => none
  /-- the locks that were made -/
  locks : Nat := 0
  holder : Nat → Option Nat := fun _ => none
  cache : O → K → Option Nat := fun _ _ => none
  made : Nat := 0
  called : List (O × K) := []
  returned : List (O × K × Res) := []

/-- What a step is, as far as it depends on the program that uses the cache. -/
inductive Act (O K : Type) where
  | ask (o : O) (k : K)
  | raise
  | other
deriving DecidableEq, Repr

/-- The steps of a cached method, `util.py:515-534`, with `object_locker`, `util.py:463-512`. Finding or making a lock is one step, because
    it is done with `locker_lock`; removing it (`del locker[obj]`) is done without. -/
inductive MStep : Act O K → MState O K → MState O K → Prop
  | find {s : MState O K} (t : Nat) (o : O) (k : K) (l : Nat) : s.phase t = .idle → s.table o = some l →
      MStep (.ask o k) s { s with phase := upd s.phase t (.asks o k l false) }
  | make {s : MState O K} (t : Nat) (o : O) (k : K) : s.phase t = .idle → s.table o = none →
      MStep (.ask o k) s { s with phase := upd s.phase t (.asks o k s.locks true), table := upd s.table o (some s.locks), locks := s.locks + 1 }
  | acquire {s : MState O K} (t : Nat) (o : O) (k : K) (l : Nat) (own : Bool) : s.phase t = .asks o k l own → s.holder l = none →
      MStep .other s { s with phase := upd s.phase t (.holds o k l own), holder := upd s.holder l (some t) }
  | hit {s : MState O K} (t : Nat) (o : O) (k : K) (l : Nat) (own : Bool) (v : Nat) : s.phase t = .holds o k l own → s.cache o k = some v →
      MStep .other s { s with phase := upd s.phase t (.leaves o k l own (.val v)) }
  | miss {s : MState O K} (t : Nat) (o : O) (k : K) (l : Nat) (own : Bool) : s.phase t = .holds o k l own → s.cache o k = none →
      MStep .other s { s with phase := upd s.phase t (.calls o k l own), called := s.called ++ [(o, k)] }
  | value {s : MState O K} (t : Nat) (o : O) (k : K) (l : Nat) (own : Bool) : s.phase t = .calls o k l own →
      MStep .other s { s with
        phase := upd s.phase t (.leaves o k l own (.val s.made)), cache := upd s.cache o (upd (s.cache o) k (some s.made)), made := s.made + 1 }
  | raise {s : MState O K} (t : Nat) (o : O) (k : K) (l : Nat) (own : Bool) : s.phase t = .calls o k l own →
      MStep .raise s { s with phase := upd s.phase t (.leaves o k l own .raised) }
  | release {s : MState O K} (t : Nat) (o : O) (k : K) (l : Nat) (r : Res) : s.phase t = .leaves o k l false r →
      MStep .other s { s with phase := upd s.phase t .idle, holder := upd s.holder l none, returned := s.returned ++ [(o, k, r)] }
  | clear {s : MState O K} (t : Nat) (o : O) (k : K) (l : Nat) (r : Res) : s.phase t = .leaves o k l true r →
      MStep .other s { s with phase := upd s.phase t (.clears o k r), holder := upd s.holder l none }
  | remove {s : MState O K} (t : Nat) (o : O) (k : K) (r : Res) : s.phase t = .clears o k r →
      MStep .other s { s with phase := upd s.phase t .idle, table := upd s.table o none, returned := s.returned ++ [(o, k, r)] }

/-- The states that are reached with certain steps. -/
inductive MReach (P : Act O K → Prop) : MState O K → Prop
  | init : MReach P {}
  | step {a : Act O K} {s s' : MState O K} : MReach P s → P a → MStep a s s' → MReach P s'

end Parce.Cache
