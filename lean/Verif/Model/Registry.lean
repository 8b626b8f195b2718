/-
The registry of languages: `parce/registry.py:89-307`.

Strings are lists of characters; `lower` is the parameter for `str.lower`. File name patterns and regular
expressions are given by what they match: `file`, `search` are the parameters for `fnmatch.fnmatch` and
`re.search`. Weights (floating point numbers in the code) are natural numbers, e.g. thousandths; with
floats the sums would be rounded.
-/

namespace Parce.Reg

abbrev Str := List Char

/-- `Entry`, `registry.py:51-86`. -/
structure Entry where
  name : Str
  desc : Str
  section' : Str
  author : Str
  aliases : List Str
  filenames : List (Str × Nat)
  mimetypes : List (Str × Nat)
  guesses : List (Str × Nat)
deriving DecidableEq

/-- A dictionary in the order of insertion; the keys are the qualified names. -/
abbrev Registry := List (Str × Entry)

/-- `self[key]` -/
def get? (r : Registry) (q : Str) : Option Entry := (r.find? (·.1 == q)).map (·.2)

/-- `self[key] = entry`: an existing key keeps its place. -/
def put (r : Registry) (q : Str) (e : Entry) : Registry :=
  if r.any (·.1 == q) then r.map (fun x => if x.1 == q then (q, e) else x) else r ++ [(q, e)]

/-- `self.pop(key)`, without the entry -/
def del (r : Registry) (q : Str) : Registry := r.filter (·.1 != q)

inductive Err
  | key | value | index
deriving DecidableEq

/-- `template.author + " + " + author` etc., lines 173-176 -/
def mergeAuthor (t a : Str) : Str := if a = [] then t else if t ≠ [] ∧ t ≠ a then t ++ " + ".toList ++ a else a

/-- `add`, lines 114-185; the new values are given as an entry, with empty strings for `None`. -/
def add (r : Registry) (q : Str) (e : Entry) (inherit : Option Str) : Except Err Registry :=
  match inherit with
  | none =>
    if e.name = [] ∨ e.desc = [] then .error .value else .ok (put r q e)
  | some i =>
    match get? r i with
    | none => .error .key
    | some t =>
      let e' : Entry := ⟨if e.name = [] then t.name else e.name, if e.desc = [] then t.desc else e.desc,
        if e.section' = [] then t.section' else e.section', mergeAuthor t.author e.author, t.aliases ++ e.aliases,
        t.filenames ++ e.filenames, t.mimetypes ++ e.mimetypes, t.guesses ++ e.guesses⟩
      if e'.name = [] ∨ e'.desc = [] then .error .value else .ok (put (del r i) q e')

/-! ## qualname -/

/-- `s.split(".")` -/
def splitDot : Str → List Str
  | [] => [[]]
  | c :: s => if c = '.' then [] :: splitDot s else
    match splitDot s with
    | [] => [[c]]
    | w :: ws => (c :: w) :: ws

/-- `qualname.rsplit(".", 2)[1]`, line 249: of two or more dots the part before the last dot, of one dot the last
    part; without dots an `IndexError`. -/
def className (q : Str) : Option Str :=
  match (splitDot q).reverse with
  | _ :: c :: _ :: _ => some c
  | l :: _ :: [] => some l
  | _ => none

/-- The loop in `qualname`, lines 241-251, and the result, lines 252-253. -/
def qualnameLoop (lower : Str → Str) (name : Str) : Registry → List Str → List Str → List Str → Except Err (Option Str)
  | [], as, ns, cs => .ok (as ++ ns ++ cs).head?
  | (q, e) :: r, as, ns, cs =>
    if name = e.name then .ok (some q) else
    let as := if name ∈ e.aliases then as ++ [q] else as
    let ns := if lower name = lower e.name ∨ e.aliases.any (fun a => lower a == lower name) then ns ++ [q] else ns
    match className q with
    | none => .error .index
    | some c => qualnameLoop lower name r as ns (if lower name = lower c then cs ++ [q] else cs)

/-- `qualname`, lines 229-253. -/
def qualname (lower : Str → Str) (r : Registry) (name : Str) : Except Err (Option Str) := qualnameLoop lower name r [] [] []

/-! ## suggest -/

/-- The `weights` dictionary. -/
abbrev Weights := List (Str × Nat)

def wget (w : Weights) (q : Str) : Nat := ((w.find? (·.1 == q)).map (·.2)).getD 0

/-- `weights[name] += weight` -/
def wadd (w : Weights) (q : Str) (n : Nat) : Weights :=
  if w.any (·.1 == q) then w.map (fun x => if x.1 == q then (q, x.2 + n) else x) else w ++ [(q, n)]

/-- `max(…, default=0)` of the weights of what matches -/
def best (m : Str → Bool) (l : List (Str × Nat)) : Nat := ((l.filter (fun x => m x.1)).map (·.2)).foldl max 0

/-- Adding a weight for every name, if it is not zero, lines 200-204 and 206-210 and 222-226. -/
def addAll (f : Str → Nat) (names : List Str) (w : Weights) : Weights :=
  names.foldl (fun w n => if f n = 0 then w else wadd w n (f n)) w

/-- Put an item before the first one that is not heavier. -/
def insertW (x : Str × Nat) : Weights → Weights
  | [] => [x]
  | y :: l => if y.2 ≤ x.2 then x :: y :: l else y :: insertW x l

/-- `sorted(weights, key=weights.get, reverse=True)`: heaviest first, names with the same weight keep the
    order they have in the dictionary. -/
def ranked (w : Weights) : List Str := (w.foldr insertW []).map (·.1)

/-- If the file name (mime type, contents) is given, add the weights. -/
def addIf (v : Option Str) (f : Str → Str → Nat) (names : List Str) (w : Weights) : Weights := match v with
  | some x => addAll (f x) names w
  | none => w

/-- A weight that depends on the entry of a name. -/
def ofEntry (r : Registry) (sel : Entry → Nat) (n : Str) : Nat := ((get? r n).map sel).getD 0

/-- `suggest`, lines 187-227. The file name, mime type and contents are `none` if they are not given or empty. -/
def suggest (file search : Str → Str → Bool) (r : Registry) (filename mimetype contents : Option Str) : List Str :=
  let names := r.map (·.1)
  let w := addIf filename (fun f => ofEntry r (fun e => best (file f) e.filenames)) names []
  let w := addIf mimetype (fun m => ofEntry r (fun e => best (fun t => t == m) e.mimetypes)) names w
  let guess (names : List Str) : List Str := ranked (addIf contents
    (fun c => ofEntry r (fun e => ((e.guesses.filter (fun g => search g.1 (c.take 5000))).map (·.2)).sum)) names w)
  match ranked w with
  | [] => guess names
  | [n] => [n]
  | a :: b :: l => if wget w b < wget w a then a :: b :: l else guess (a :: b :: l)

/-! ## find -/

/-- `find`, lines 268-307: the registry and its fallbacks, in that order. `None` is not found. Importing the module
    (`lexicon`, lines 255-266) is not modelled: the result is the qualified name. -/
def find (lower : Str → Str) (file search : Str → Str → Bool) (name filename mimetype contents : Option Str) :
    List Registry → Except Err (Option Str)
  | [] => .ok none
  | r :: rs =>
    if r = [] then .ok none else
    match name with
    | some n => match qualname lower r n with
      | .error e => .error e
      | .ok (some (c :: q)) => .ok (some (c :: q))
      | .ok _ => find lower file search name filename mimetype contents rs
    | none => match suggest file search r filename mimetype contents with
      | q :: _ => .ok (some q)
      | [] => find lower file search name filename mimetype contents rs

end Parce.Reg
