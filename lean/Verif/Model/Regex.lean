/-!
# Model of parce/regex.py

Words and regular expressions are lists of characters (Lean's `Char` has no surrogates, which a
Python string could have). Dictionaries are lists of pairs in the order of insertion, sets are
lists without duplicates. The order of the tuples that are taken from a set is arbitrary, see
`TupleOrder`.
-/
namespace Parce.Rx

abbrev Word := List Char

/-- The characters escaped by `re.escape` (Python 3.7 and later). -/
def specials : List Char :=
  "()[]{}?*+-|^$\\.&~# \t\n\r\x0b\x0c".toList

/-- `re.escape`. -/
def escape : Word → Word
  | [] => []
  | c :: w => if c ∈ specials then '\\' :: c :: escape w else c :: escape w

/-! ## Character classes -/

/-- The loop of `make_charclass`, `regex.py:67-71`, with the last entry of `buf` apart. -/
def runs : Char → Char → List Char → List (Char × Char)
  | a, b, [] => [(a, b)]
  | a, b, c :: cs => if b.toNat + 1 = c.toNat then runs a c cs else (a, b) :: runs c c cs

/-- One entry of `buf` as text, `regex.py:72-75`. -/
def runText (r : Char × Char) : Word :=
  if r.1 = r.2 then escape [r.1]
  else if r.1.toNat + 1 = r.2.toNat then escape [r.1, r.2]
  else escape [r.1] ++ '-' :: escape [r.2]

/-- `make_charclass`, `regex.py:51-76`. -/
def makeCharclass (chars : List Char) : Word :=
  match chars.eraseDups.mergeSort (fun a b => decide (a.toNat ≤ b.toNat)) with
  | [] => []
  | c :: cs => (runs c c cs).flatMap runText

/-! ## The common suffix -/

/-- The loop over `zip(*map(reversed, words))`, `regex.py:94-97`; the arguments are the first
    reversed word and the others. -/
def commonPre : Word → List Word → Word
  | [], _ => []
  | c :: w, ws => if ws.all (fun v => v.head? == some c) then c :: commonPre w (ws.map List.tail) else []

/-- `common_suffix`, `regex.py:79-102`. -/
def commonSuffix (words : List Word) : List Word × Word :=
  match words with
  | [] => ([], [])
  | w :: ws =>
    let suffix := (commonPre w.reverse (ws.map List.reverse)).reverse
    if suffix = [] then (words, []) else (words.map (fun v => v.take (v.length - suffix.length)), suffix)

/-! ## Tries -/

/-- A dictionary; `fin` tells that the key `None` is present. -/
inductive Trie where
  | node (fin : Bool) (kids : List (Word × Trie))

def Trie.kids : Trie → List (Word × Trie)
  | .node _ ks => ks

def Trie.fin : Trie → Bool
  | .node f _ => f

/-- `d.setdefault(c, {})`, where `f` does the rest of the word. -/
def insertKid (f : Trie → Trie) (c : Char) : List (Word × Trie) → List (Word × Trie)
  | [] => [([c], f (.node false []))]
  | (k, t) :: ks => if k = [c] then (k, f t) :: ks else (k, t) :: insertKid f c ks

/-- Adding the characters of one word, `regex.py:202-205`. -/
def insertWord : Word → Trie → Trie
  | [], t => .node true t.kids
  | c :: w, t => .node t.fin (insertKid (insertWord w) c t.kids)

/-- `add`, `regex.py:193-198`. -/
def addKey (rev : Bool) (k1 k2 : Word) : Word := if rev then k2 ++ k1 else k1 ++ k2

mutual
/-- The body of the loop of `merge`, `regex.py:210-220`, for one key and node. -/
def mergeKid (rev : Bool) (key : Word) : Trie → Word × Trie
  | .node false [(k, n)] => mergeKid rev (addKey rev key k) n
  | .node true [] => (key, .node true [])
  | .node fin ks => (key, .node fin (mergeKids rev ks))
/-- `merge`, `regex.py:208-220`. -/
def mergeKids (rev : Bool) : List (Word × Trie) → List (Word × Trie)
  | [] => []
  | (k, t) :: ks => mergeKid rev k t :: mergeKids rev ks
end

/-- `make_trie`, `regex.py:157-222`. -/
def makeTrie (rev : Bool) (words : List Word) : Trie :=
  match words.foldl (fun t w => insertWord (if rev then w.reverse else w) t) (Trie.node false []) with
  | .node fin ks => .node fin (mergeKids rev ks)

mutual
/-- `==` for dictionaries. -/
def Trie.eqv : Trie → Trie → Bool
  | .node f ks, .node f' ks' => f == f' && kidsIn ks ks' && ks'.all (fun p => kidsAny ks p)
def kidsIn : List (Word × Trie) → List (Word × Trie) → Bool
  | [], _ => true
  | (k, t) :: ks, ks' => ks'.any (fun p => p.1 == k && t.eqv p.2) && kidsIn ks ks'
def kidsAny : List (Word × Trie) → Word × Trie → Bool
  | [], _ => false
  | (k, t) :: ks, p => (p.1 == k && t.eqv p.2) || kidsAny ks p
end

/-! ## Tuples of expression parts -/

mutual
/-- A member of a tuple: a string or a frozenset. -/
inductive Part where
  | str (s : Word)
  | set (alts : List Alt)
/-- A member of a frozenset: `None`, a string or a tuple. -/
inductive Alt where
  | none
  | str (s : Word)
  | tup (ps : List Part)
end

mutual
/-- `==` for parts. -/
def Part.eqv : Part → Part → Bool
  | .str s, .str t => s == t
  | .set a, .set b => allIn a b && b.all (fun y => anyEq a y)
  | _, _ => false
def Alt.eqv : Alt → Alt → Bool
  | .none, .none => true
  | .str s, .str t => s == t
  | .tup ps, .tup qs => partsEqv ps qs
  | _, _ => false
/-- `==` for tuples. -/
def partsEqv : List Part → List Part → Bool
  | [], [] => true
  | p :: ps, q :: qs => p.eqv q && partsEqv ps qs
  | _, _ => false
def allIn : List Alt → List Alt → Bool
  | [], _ => true
  | x :: xs, b => b.any (fun y => x.eqv y) && allIn xs b
def anyEq : List Alt → Alt → Bool
  | [], _ => false
  | x :: xs, y => x.eqv y || anyEq xs y
end

/-- `set.add`. -/
def addAlt (gs : List Alt) (x : Alt) : List Alt := if anyEq gs x then gs else gs ++ [x]

/-- `combine`, `regex.py:290-293`. -/
def combine (rev : Bool) (r1 r2 : List Part) : List Part := if rev then r2 ++ r1 else r1 ++ r2

/-- Keys with the same node, and the tuple for that node. -/
structure Group where
  keys : List Word
  node : Trie
  r : List Part

/-- The node of one key is looked up in `seen`, `regex.py:306-315`. -/
def addKid : List Group → Word × Trie × List Part → List Group
  | [], (k, n, r) => [⟨[k], n, r⟩]
  | g :: gs, (k, n, r) => if g.node.eqv n then { g with keys := g.keys ++ [k] } :: gs else g :: addKid gs (k, n, r)

/-- The single member, or a frozenset, `regex.py:338` (a single member is always a tuple). -/
def popGroups : List Alt → List Part
  | [.tup t] => t
  | [.str s] => [.str s]
  | gs => [.set gs]

/-- The alternatives, `regex.py:301-338`, where `add` handles one entry of `keys` and `seen`. -/
def groupTuple (add : List Alt → Group → List Alt) (fin : Bool) (ks : List (Word × Trie × List Part)) : List Part :=
  popGroups ((ks.foldl addKid []).foldl add (if fin then [.none] else []))

/-- `trie_to_regexp_tuple` when the tuples for the nodes below are known, `regex.py:295-338`. -/
def tupleOf (rev : Bool) (add : List Alt → Group → List Alt) (fin : Bool) (ks : List (Word × Trie × List Part)) :
    List Part :=
  match fin, ks with
  | false, [(k, _, r)] => combine rev [.str k] r
  | true, [] => []
  | _, _ => groupTuple add fin ks

/-- One entry, in reverse, `regex.py:319-337`. -/
def addGroupR (gs : List Alt) (g : Group) : List Alt :=
  match g.keys with
  | [k] => if g.node.kids.isEmpty then addAlt gs (.str k) else addAlt gs (.tup (combine true [.str k] g.r))
  | keys =>
    if g.node.kids.isEmpty then (keys.map Alt.str).foldl addAlt gs
    else addAlt gs (.tup (combine true [.set (keys.map Alt.str)] g.r))

mutual
/-- `trie_to_regexp_tuple(node, True)`. -/
def toTupleR : Trie → List Part
  | .node fin ks => tupleOf true addGroupR fin (tuplesR ks)
def tuplesR : List (Word × Trie) → List (Word × Trie × List Part)
  | [] => []
  | (k, t) :: ks => (k, t, toTupleR t) :: tuplesR ks
end

/-- One entry, `regex.py:319-337`. -/
def addGroup (gs : List Alt) (g : Group) : List Alt :=
  match g.keys with
  | [k] => if g.node.kids.isEmpty then addAlt gs (.str k) else addAlt gs (.tup (combine false [.str k] g.r))
  | keys =>
    let r := toTupleR (makeTrie true keys)
    if partsEqv r [.set (keys.map Alt.str)] && g.node.kids.isEmpty then (keys.map Alt.str).foldl addAlt gs
    else addAlt gs (.tup (combine false r g.r))

mutual
/-- `trie_to_regexp_tuple`, `regex.py:225-338`. -/
def toTuple : Trie → List Part
  | .node fin ks => tupleOf false addGroup fin (tuples ks)
def tuples : List (Word × Trie) → List (Word × Trie × List Part)
  | [] => []
  | (k, t) :: ks => (k, t, toTuple t) :: tuples ks
end

/-! ## Building the expression -/

/-- An item: a string, or the strings and tuples of a set; here with the expression built for
    each tuple. -/
inductive Item where
  | str (s : Word)
  | grp (exprs : List Word) (tuples : List (List Part × Word))

/-- `==` for items. -/
def Item.eqv : Item → Item → Bool
  | .str s, .str t => s == t
  | .grp e t, .grp e' t' =>
    e.all (fun x => e'.contains x) && e'.all (fun x => e.contains x) &&
    t.all (fun x => t'.any (fun y => partsEqv x.1 y.1)) && t'.all (fun y => t.any (fun x => partsEqv x.1 y.1))
  | _, _ => false

/-- An item with the least and greatest count. -/
structure Counted where
  item : Item
  lo : Nat
  hi : Nat

/-- `merge_items`, `regex.py:408-424`; the last entry of `items` apart. -/
def mergeItems : Counted → List Counted → List Counted
  | x, [] => [x]
  | x, y :: ys => if x.item.eqv y.item then mergeItems ⟨x.item, x.lo + y.lo, x.hi + y.hi⟩ ys else x :: mergeItems y ys

def mergeAll : List Counted → List Counted
  | [] => []
  | x :: xs => mergeItems x xs

/-- The decimal digits of a number. -/
def digits (n : Nat) : Word := if n < 10 then [Char.ofNat (48 + n)] else digits (n / 10) ++ [Char.ofNat (48 + n % 10)]

/-- `count or ''`. -/
def digitsOr (n : Nat) : Word := if n = 0 then [] else digits n

/-- The qualifier, `regex.py:432-439`. -/
def qualifier (lo hi : Nat) : Word :=
  if lo = 1 ∧ hi = 1 then []
  else if lo = 0 ∧ hi = 1 then ['?']
  else if lo = hi then '{' :: digits hi ++ ['}']
  else '{' :: digitsOr lo ++ ',' :: digitsOr hi ++ ['}']

/-- `'(?:' + rx + ')'`. -/
def enclose (rx : Word) : Word := '(' :: '?' :: ':' :: rx ++ [')']

/-- `sorted`, for strings. -/
def sortWords (ws : List Word) : List Word :=
  ws.mergeSort (fun a b => decide (a ≤ b))

/-- `'|'.join`. -/
def join : List Word → Word
  | [] => []
  | [w] => w
  | w :: ws => w ++ '|' :: join ws

/-- The alternatives of a group, `regex.py:451-463`. -/
def groupAlts (exprs : List Word) (tuples : List Word) : List Word :=
  let chars := (exprs.filter (fun k => k.length == 1)).flatten
  let strings := exprs.filter (fun k => k.length != 1)
  (match chars with
    | [] => []
    | [c] => [escape [c]]
    | cs => ['[' :: makeCharclass cs ++ [']']]) ++
  (sortWords strings).map escape ++ tuples

/-- The order in which a set of tuples is iterated, `regex.py:463`; it depends on hash values. -/
class TupleOrder where
  ord : List (List Part × Word) → List (List Part × Word)
  perm : ∀ l, (ord l).Perm l

variable [TupleOrder]

/-- The text for one item, `regex.py:430-472`; `n` is the number of items. -/
def renderItem (n : Nat) (x : Counted) : Word :=
  let q := qualifier x.lo x.hi
  match x.item with
  | .str s =>
    let rx := escape s
    if rx.length = 1 ∧ x.lo = 1 ∧ x.hi = 2 then rx ++ rx ++ ['?']
    else (if s.length > 1 ∧ q ≠ [] then enclose rx else rx) ++ q
  | .grp exprs tuples =>
    let group := groupAlts exprs ((TupleOrder.ord tuples).map Prod.snd)
    if exprs.any (fun k => k.length == 1) && exprs.all (fun k => k.length == 1) && tuples.isEmpty then
      group.headD [] ++ q
    else (if n > 1 ∨ q ≠ [] then enclose (join group) else join group) ++ q

/-- `regex.py:426-473`. -/
def render (items : List Counted) : Word := items.flatMap (renderItem items.length)

/-- The strings in a set. -/
def exprsOf : List Alt → List Word
  | [] => []
  | .str s :: as => s :: exprsOf as
  | .none :: as => exprsOf as
  | .tup _ :: as => exprsOf as

/-- Whether `None` is in the set. -/
def hasNone : List Alt → Bool
  | [] => false
  | .none :: _ => true
  | .str _ :: as => hasNone as
  | .tup _ :: as => hasNone as

/-- `get_items` for a frozenset, `regex.py:373-406`; for each tuple its merged items are known. -/
def setItems (lo : Nat) (exprs : List Word) (tups : List (List Part × List Counted)) : List Counted :=
  let group : Item := .grp exprs (tups.map (fun t => (t.1, render t.2)))
  match exprs, tups with
  | [e], [] => [⟨.str e, lo, 1⟩]
  | [], [t] =>
    if lo = 1 then t.2
    else match t.2 with
      | [x] => if x.lo ≤ 1 then [⟨x.item, 0, x.hi⟩] else [⟨group, lo, 1⟩]
      | _ => [⟨group, lo, 1⟩]
  | _, _ => [⟨group, lo, 1⟩]

mutual
/-- `get_items`, `regex.py:359-406`, for one part. -/
def partItems : Part → List Counted
  | .str s => [⟨.str s, 1, 1⟩]
  | .set alts => setItems (if hasNone alts then 0 else 1) (exprsOf alts) (tupsOf alts)
def partsItems : List Part → List Counted
  | [] => []
  | p :: ps => partItems p ++ partsItems ps
/-- The tuples in a set, each with its merged items. -/
def tupsOf : List Alt → List (List Part × List Counted)
  | [] => []
  | .tup ps :: as => (ps, mergeAll (partsItems ps)) :: tupsOf as
  | .none :: as => tupsOf as
  | .str _ :: as => tupsOf as
end

/-- `build_regexp`, `regex.py:341-473`. -/
def buildRegexp (r : List Part) : Word := render (mergeAll (partsItems r))

/-- `words2regexp`, `regex.py:31-48`. -/
def words2regexp (words : List Word) : Word :=
  let (words, suffix) := commonSuffix words
  let r := toTuple (makeTrie false words)
  buildRegexp (if suffix = [] then r else r ++ [.str suffix])

end Parce.Rx
