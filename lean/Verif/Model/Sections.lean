import Verif.Model.Registry
/-!
# Model of `Registry.by_section`, parce/registry.py:309-314
-/
namespace Parce.Reg

/-- A dictionary from the names of sections to dictionaries, in the order of insertion. -/
abbrev Sections := List (Str × Registry)

/-- `d[section][qualname] = entry`, `registry.py:313`, where `d` is a `defaultdict(dict)`: a missing section is made first. -/
def secPut (s q : Str) (e : Entry) : Sections → Sections
  | [] => [(s, put [] q e)]
  | (s', g) :: rest => if s' = s then (s', put g q e) :: rest else (s', g) :: secPut s q e rest

/-- `Registry.by_section`, `registry.py:309-314`. -/
def bySection (r : Registry) : Sections := r.foldl (fun d x => secPut x.2.section' x.1 x.2 d) []

end Parce.Reg
