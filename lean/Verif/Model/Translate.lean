import Verif.Model.Replace
import Verif.Model.Regex
/-!
# Model of `translate` of `document.py` (261-272)

The mapping is a list of keys and values, without the same key twice. The expression is the text that
`words2regexp` makes of the keys (`Verif/Model/Regex.lean`); what `re.compile` makes of this text is a
parameter `a` here, and the theorems are about the expression that the text stands for
(`Reads` in `Verif/Spec/Longest.lean`). `isWord` tells which characters are matched by `\w`.
-/
namespace Parce

/-- `\b`: exactly one of the characters before and after is a word character. -/
def atEdge (isWord : Char → Bool) (t : List Char) (p : Nat) : Bool :=
  (p != 0 && t[p - 1]?.any isWord) != t[p]?.any isWord

/-- `\b({})\b`, `document.py:270`. -/
def wholePat (isWord : Char → Bool) (a : Pat Char) : Pat Char :=
  .cat (.test (atEdge isWord)) (.cat (.grp 1 a) (.test (atEdge isWord)))

/-- The statements that are executed, `document.py:268-272` with 250-255. The replacement function is
    `mapping[m.group()]`, `document.py:271`, which raises a KeyError if there is no such key. -/
def translateOps (t : List Char) (mapping : List (List Char × List Char)) (a : Pat Char) (start : Int) (stop : Option Int)
    (count : Int) : List (Op Char) :=
  let r := region t start stop
  (upTo count (findIter a r (2 * r.length + 2) 0 false)).map fun m =>
    match mapping.lookup (slice r m.start m.stop) with
    | some v => .set (.range (some (start + m.start)) (some (start + m.stop))) v
    | none => .raise

/-- `translate`, `document.py:261-272`. -/
def Doc.translate (isWord : Char → Bool) (d : Doc Char) (mapping : List (List Char × List Char)) (a : Pat Char)
    (start : Int := 0) (stop : Option Int := none) (count : Int := 0) (whole : Bool := false) : DRes Char :=
  d.withBlock .normal (translateOps d.ms.text mapping (if whole then wholePat isWord a else a) start stop count)

end Parce
