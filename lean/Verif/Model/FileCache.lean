/-!
# Model of `file_cache` in parce/util.py

Files are independent, so there is one file here. Times are integers. The function and the reading of the time of the file are given by what they
return; they are called with the lock, so calls do not overlap.
-/
namespace Parce.FileC
variable {V : Type}

/-- What a call gives: a value, the exception of the function, or an UnboundLocalError. -/
inductive Out (V : Type) where
  | value (v : V)
  | raised
  | unbound
deriving DecidableEq, Repr

/-- `filecache.__getitem__`, `util.py:616-630`: `cache` is what is kept for the file, `mtime` the time of the file (none: OSError), `res` what the
    function returns (none: an exception). -/
def getitem (cache : Option (Int × V)) (mtime : Option Int) (res : Option V) : Option (Int × V) × Out V :=
  if (cache.elim (-1) (·.1)) ≠ mtime.getD (-2) then
    match res with
    | none => (cache, .raised)
    | some v => (if mtime.getD (-2) ≥ 0 then some (mtime.getD (-2), v) else cache, .value v)
  else
    match cache with
    | some (_, v) => (cache, .value v)
    | none => (none, .unbound)

end Parce.FileC
